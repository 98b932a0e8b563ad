/-
Time smoothing of a spectrogram of full-scale audio (`smooth_spectrogram_time`, src/features/chroma/extractor.rs lines
1246-1290): rounding in the running sums can raise a magnitude, but not by more than a factor of four.
-/
import Verif.Props.Mask
import Verif.Props.WholeSpec

namespace Verif.Props
open Verif Verif.Mask F32

theorem rnd_abs_err (q : ℚ) : |rndQ q - q| ≤ |q| * pow2 (-24) + pow2 (-150) := by
  have p1 := pow2_pos (-150)
  have p2 := pow2_pos (-24)
  rcases le_total (pow2 (-126)) |q| with h | h
  · linarith [abs_rndQ_sub_le_rel h]
  · have := abs_rndQ_sub_le_sub h
    have := mul_nonneg (_root_.abs_nonneg q) p2.le
    linarith

theorem tiny_le : pow2 (-150) ≤ 1 / 1024 := by rw [pow2_eq]; norm_num
theorem pow2_24 : pow2 24 = 16777216 := by rw [pow2_eq]; norm_num
theorem pow2_two : pow2 2 = 4 := by rw [pow2_eq]; norm_num
theorem eps_eq : pow2 (-24) = 1 / 16777216 := by rw [pow2_eq]; norm_num

theorem one_le_pow2_nat (B : ℕ) : 1 ≤ pow2 B := by
  have : pow2 0 = 1 := by rw [pow2_eq]; norm_num
  rw [← this]; exact pow2_le (by omega)

theorem sat_exact : ∀ B : ℕ, B < 41 → rndQ (pow2 (B + 24) + pow2 B) = pow2 (B + 24) := by decide +kernel

theorem sat_step {B : ℕ} (hB : B ≤ 40) {p v : ℚ} {hp hv} (p0 : 0 ≤ p) (p1 : p ≤ pow2 (B + 24)) (v0 : 0 ≤ v) (v1 : v ≤ pow2 B) :
    ∃ q hq, fin p hp + fin v hv = fin q hq ∧ p ≤ q ∧ q ≤ pow2 (B + 24) ∧ q ≤ p + 5 / 2 * pow2 B := by
  have hb1 : 1 ≤ pow2 B := one_le_pow2_nat B
  have hb24 : pow2 (B + 24) = pow2 B * 16777216 := by rw [pow2_add, pow2_24]
  have hS : rndQ (pow2 (B + 24) + pow2 B) = pow2 (B + 24) := sat_exact B (by omega)
  have hbig : pow2 ((B : ℤ) + 24) < pow2 128 := pow2_lt (by omega)
  generalize pow2 ((B : ℤ) + 24) = S at *
  generalize pow2 (B : ℤ) = b at *
  have l : p ≤ rndQ (p + v) := le_rndQ_of_onGrid hp.1 (by linarith)
  have u : rndQ (p + v) ≤ S := (rndQ_mono (add_le_add p1 v1)).trans hS.le
  have hlt : |rndQ (p + v)| < pow2 128 := by
    rw [abs_of_nonneg (p0.trans l)]; exact lt_of_le_of_lt u hbig
  refine ⟨rndQ (p + v), ⟨onGrid_rndQ _, hlt⟩, by rw [add_fin, rnd_of_lt hlt], l, u, ?_⟩
  have e := rnd_abs_err (p + v)
  rw [abs_of_nonneg (by linarith : 0 ≤ p + v), eps_eq] at e
  have e2 := (abs_le.1 e).2
  have ht := tiny_le
  linarith

/-- the running sums of a column: finite, non-decreasing, and growing by at most `5/2` of the largest magnitude per frame -/
theorem prefix_steps {B : ℕ} (hB : B ≤ 40) {col : List F32} (h : ∀ x ∈ col, 0 ≤ x ∧ x ≤ rnd (pow2 B)) :
    ∃ P : ℕ → ℚ, ∀ k, (∃ hp, prefixAt col k = fin (P k) hp) ∧ 0 ≤ P k ∧ P k ≤ P (k + 1) ∧ P (k + 1) ≤ P k + 5 / 2 * pow2 B := by
  have hcol : ∀ k, (∃ p hp, prefixAt col k = fin p hp ∧ 0 ≤ p ∧ p ≤ pow2 (B + 24)) ∧
      (prefixAt col (k + 1) = prefixAt col k ∨ ∃ x ∈ col, prefixAt col (k + 1) = prefixAt col k + x) := by
    have step : ∀ k, prefixAt col (k + 1) = prefixAt col k ∨ ∃ x ∈ col, prefixAt col (k + 1) = prefixAt col k + x := by
      intro k
      by_cases hk : k < col.length
      · right
        refine ⟨col[k], List.getElem_mem hk, ?_⟩
        unfold prefixAt F32.sum
        rw [List.take_succ_eq_append_getElem hk, List.foldl_append]; rfl
      · left
        unfold prefixAt
        rw [List.take_of_length_le (by omega), List.take_of_length_le (by omega)]
    intro k
    refine ⟨?_, step k⟩
    induction k with
    | zero => exact ⟨0, grid_zero, zero_def, le_rfl, (pow2_pos _).le⟩
    | succ k ih =>
      obtain ⟨p, hp, e, p0, p1⟩ := ih
      rcases step k with e' | ⟨x, hx, e'⟩
      · exact ⟨p, hp, e'.trans e, p0, p1⟩
      · obtain ⟨hB', eB⟩ := mags_fin B (by omega)
        obtain ⟨x0, x1⟩ := h x hx
        rw [eB] at x1
        rw [zero_def] at x0
        obtain ⟨v, hv, rfl, v0, v1⟩ := between_cases x0 x1
        obtain ⟨q, hq, eq, l, u, -⟩ := sat_step hB (hp := hp) (hv := hv) p0 p1 v0 v1
        exact ⟨q, hq, by rw [e', e, eq], p0.trans l, u⟩
  choose P hP using fun k => (hcol k).1
  refine ⟨P, fun k => ?_⟩
  obtain ⟨hp, e, p0, p1⟩ := hP k
  obtain ⟨hp', e', -, -⟩ := hP (k + 1)
  refine ⟨⟨hp, e⟩, p0, ?_⟩
  have hb := pow2_pos B
  rcases (hcol k).2 with h' | ⟨x, hx, h'⟩
  · have : fin (P (k + 1)) hp' = fin (P k) hp := by rw [← e', ← e, h']
    injection this with this
    rw [this]; exact ⟨le_rfl, by linarith⟩
  · obtain ⟨hB', eB⟩ := mags_fin B (by omega)
    obtain ⟨x0, x1⟩ := h x hx
    rw [eB] at x1
    rw [zero_def] at x0
    obtain ⟨v, hv, rfl, v0, v1⟩ := between_cases x0 x1
    obtain ⟨q, hq, eq, l, -, u⟩ := sat_step hB (hp := hp) (hv := hv) p0 p1 v0 v1
    have : fin (P (k + 1)) hp' = fin q hq := by rw [← e', ← eq, ← e, h']
    injection this with this
    rw [this]; exact ⟨l, u⟩

theorem smoothCell_range {B : ℕ} (hB : B ≤ 40) {col : List F32} (h : ∀ x ∈ col, 0 ≤ x ∧ x ≤ rnd (pow2 B)) (hl : col.length ≤ 2 ^ 62)
    {margin t : ℕ} (ht : t < col.length) : 0 ≤ smoothCell col margin t ∧ smoothCell col margin t ≤ rnd (pow2 (B + 2 : ℕ)) := by
  obtain ⟨P, hP⟩ := prefix_steps hB h
  unfold smoothCell
  dsimp only
  have hs : t - margin < Nat.min (t + margin + 1) col.length := Nat.lt_min.2 ⟨by omega, by omega⟩
  have hs' : Nat.min (t + margin + 1) col.length ≤ col.length := Nat.min_le_right _ _
  generalize Nat.min (t + margin + 1) col.length = b at *
  generalize t - margin = a at *
  obtain ⟨w, rfl⟩ : ∃ w, b = a + w := ⟨b - a, by omega⟩
  rw [show Nat.max (a + w - a) 1 = w from by rw [Nat.add_sub_cancel_left]; exact Nat.max_eq_left (by omega)]
  have grow : ∀ d, P a ≤ P (a + d) ∧ P (a + d) ≤ P a + d * (5 / 2 * pow2 B) := by
    intro d
    induction d with
    | zero => simp
    | succ d ih =>
      obtain ⟨-, -, l, u⟩ := hP (a + d)
      refine ⟨ih.1.trans l, ?_⟩
      rw [← Nat.add_assoc]; push_cast; linarith [ih.2]
  obtain ⟨g1, g2⟩ := grow w
  obtain ⟨⟨h1, e1⟩, -⟩ := hP a
  obtain ⟨⟨h2, e2⟩, -⟩ := hP (a + w)
  rw [e1, e2, sub_fin]
  generalize P a = p1 at *
  generalize P (a + w) = p2 at *
  have hb1 : 1 ≤ pow2 B := one_le_pow2_nat B
  have w1 : (1 : ℚ) ≤ w := by exact_mod_cast (by omega : 1 ≤ w)
  have w2 : (w : ℚ) ≤ 2 ^ 62 := by exact_mod_cast (by omega : w ≤ 2 ^ 62)
  have hwb : 1 ≤ (w : ℚ) * pow2 B := one_le_mul_of_one_le_of_one_le w1 hb1
  have hD : rndQ (p2 - p1) ≤ 21 / 8 * (w * pow2 B) := by
    have e := rnd_abs_err (p2 - p1)
    rw [abs_of_nonneg (by linarith : 0 ≤ p2 - p1), eps_eq] at e
    have := (abs_le.1 e).2
    have := tiny_le
    linarith
  have hD0 : 0 ≤ rndQ (p2 - p1) := rndQ_nonneg (by linarith)
  have hDlt : |rndQ (p2 - p1)| < pow2 128 := by
    rw [abs_of_nonneg hD0]
    refine lt_of_le_of_lt hD ?_
    have hbb : pow2 B ≤ pow2 40 := pow2_le (by omega)
    have e40 : pow2 40 = 2 ^ 40 := rfl
    have e128 : pow2 128 = 2 ^ 128 := rfl
    have hm : (w : ℚ) * pow2 B ≤ 2 ^ 62 * 2 ^ 40 := by rw [← e40]; exact mul_le_mul w2 hbb (pow2_pos _).le (by norm_num)
    rw [e128]
    norm_num at hm ⊢
    linarith
  rw [rnd_of_lt hDlt]
  have hwf : ∃ hq, F32.ofNat w = fin (rndQ w) hq := by
    have hw0 : (0 : ℚ) ≤ w := by linarith
    have : |rndQ (w : ℚ)| < pow2 128 := by
      rw [abs_of_nonneg (rndQ_nonneg hw0)]
      exact lt_of_le_of_lt (rndQ_le_of_onGrid (onGrid_pow2 (e := 62) (by norm_num)) (by rw [show pow2 62 = 2 ^ 62 from rfl]; exact w2))
        (pow2_lt (by norm_num))
    exact ⟨_, rnd_of_lt this⟩
  obtain ⟨hwq, ew⟩ := hwf
  have hwl : (w : ℚ) * (15 / 16) ≤ rndQ w := by
    have e := rnd_abs_err (w : ℚ)
    rw [abs_of_nonneg (by linarith : (0 : ℚ) ≤ w), eps_eq] at e
    have := (abs_le.1 e).1
    have := tiny_le
    linarith
  have hwp : 0 < rndQ (w : ℚ) := lt_of_lt_of_le (by linarith) hwl
  rw [ew, div_fin hwp.ne']
  refine ⟨rnd_nonneg (_root_.div_nonneg hD0 hwp.le), rnd_mono ?_⟩
  rw [div_le_iff₀ hwp]
  have e4 : pow2 (B + 2 : ℕ) = 4 * pow2 B := by push_cast; rw [pow2_add, pow2_two]; ring
  rw [e4]
  have := mul_le_mul_of_nonneg_left hwl (by linarith : 0 ≤ 4 * pow2 B)
  nlinarith

theorem smoothTime_ok {B : ℕ} (hB : B ≤ 40) {s : List (List F32)} {m : ℕ} (hm0 : 0 < m) (hm : MagsTo B s m) (hl : s.length ≤ 2 ^ 62)
    (margin : ℕ) : ∃ out, smoothTime s margin = .ok out ∧ out.length = s.length ∧ MagsTo (B + 2) out m := by
  unfold smoothTime
  split_ifs with h
  · exact ⟨s, rfl, rfl, hm.mono (by omega)⟩
  rw [not_or] at h
  have hs : Shape s s.length m := ⟨rfl, fun fr hfr => (hm fr hfr).1⟩
  obtain ⟨c1, c2⟩ := check_ok hs h.1 hm0
  rw [c1, R.ok_bind, c2]
  refine ⟨_, rfl, (length_grid _ _ _).1, fun fr hfr => ⟨(length_grid _ _ _).2 fr hfr, fun x hx => ?_⟩⟩
  unfold grid at hfr
  obtain ⟨t, ht, rfl⟩ := List.mem_map.1 hfr
  obtain ⟨b, hb, rfl⟩ := List.mem_map.1 hx
  rw [List.mem_range] at ht hb
  have hlen : (column s b).length = s.length := by unfold column; rw [List.length_map]
  refine smoothCell_range hB (fun y hy => ?_) (by omega) (by omega)
  obtain ⟨fr, hfr, hy⟩ := column_mem hs hb hy
  exact (hm fr hfr).2 y hy

end Verif.Props
