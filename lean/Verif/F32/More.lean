/-
Further facts about the f32 model: absolute values of products, NaN sums, reciprocals.
-/
import Verif.F32.Lemmas

namespace Verif
namespace F32

theorem unit_cases {x : F32} (h0 : 0 ≤ x) (h1 : x ≤ 1) : ∃ v hv, x = fin v hv ∧ 0 ≤ v ∧ v ≤ 1 := by
  rw [zero_def] at h0
  rw [one_def] at h1
  exact between_cases h0 h1

theorem isFinite_of_unit {x : F32} (h0 : 0 ≤ x) (h1 : x ≤ 1) : x.isFinite = true := by
  obtain ⟨v, hv, rfl, _⟩ := unit_cases h0 h1; rfl

theorem isFinite_of_between {x lo hi : F32} (hl : lo.isFinite = true) (hh : hi.isFinite = true)
    (h0 : lo ≤ x) (h1 : x ≤ hi) : x.isFinite = true := by
  obtain ⟨a, ha, rfl⟩ := isFinite_iff.1 hl
  obtain ⟨b, hb, rfl⟩ := isFinite_iff.1 hh
  obtain ⟨v, hv, rfl, _⟩ := between_cases h0 h1; rfl

theorem abs_rnd (q : ℚ) : (rnd q).abs = rnd |q| := by
  have h := abs_rndQ q
  have hp := pow2_pos 128
  unfold rnd
  have h1 := neg_abs_le (rndQ q)
  have h2 := le_abs_self (rndQ q)
  have h0 := _root_.abs_nonneg (rndQ q)
  rw [h] at h0 h1 h2
  by_cases ha : pow2 128 ≤ rndQ q
  · rw [dif_pos ha, dif_pos (_root_.le_trans ha h2)]; rfl
  · rw [dif_neg ha]
    by_cases hb : rndQ q ≤ -pow2 128
    · rw [dif_pos hb, dif_pos (by linarith)]; rfl
    · rw [dif_neg hb, dif_neg, dif_neg (by linarith)]
      · simp only [abs_fin, h]
      · rw [not_le, ← h, abs_lt]; exact ⟨not_le.1 hb, not_le.1 ha⟩

theorem abs_mul (x y : F32) : (x * y).abs = x.abs * y.abs := by
  rcases x with _ | s | ⟨a, ha⟩ <;> rcases y with _ | t | ⟨b, hb⟩ <;>
    try rfl
  · show abs (inf s * fin b hb) = inf false * fin |b| _
    rw [inf_mul_fin, inf_mul_fin]
    by_cases h : b = 0
    · simp [h]
    · have : ¬ |b| < 0 := not_lt.2 (_root_.abs_nonneg b)
      simp [h, abs]
  · show abs (fin a ha * inf t) = fin |a| _ * inf false
    rw [fin_mul_inf, fin_mul_inf]
    by_cases h : a = 0
    · simp [h]
    · have : ¬ |a| < 0 := not_lt.2 (_root_.abs_nonneg a)
      simp [h, abs]
  · rw [abs_fin, abs_fin, mul_fin, mul_fin, abs_rnd, _root_.abs_mul]

theorem sum_nan {l : List F32} (h : nan ∈ l) : sum l = nan := by
  have key : ∀ (l : List F32) (a : F32), a = nan ∨ nan ∈ l → l.foldl (· + ·) a = nan := by
    intro l
    induction l with
    | nil => intro a h; simpa using h
    | cons b l ih =>
      intro a h
      rw [List.foldl_cons]
      apply ih
      rcases h with h | h
      · left; rw [h]; rfl
      · rcases List.mem_cons.1 h with h | h
        · left; rw [← h]; exact add_nan a
        · exact .inr h
  exact key l 0 (.inr h)

/-- `p * (1/p)` never exceeds 1 when `1/p` is in the normal range. -/
theorem mul_recip_le_one {p : ℚ} (hp : OnGrid p ∧ |p| < pow2 128) (h1 : pow2 (-100) ≤ p)
    (h2 : p ≤ pow2 126) :
    ∃ r hr, (1 : F32) / fin p hp = fin r hr ∧ 0 < r ∧ p * r ≤ 1 + 1 / 2 ^ 24 := by
  have hp0 : 0 < p := _root_.lt_of_lt_of_le (pow2_pos _) h1
  have hq1 : pow2 (-126) ≤ 1 / p := by
    rw [le_div_iff₀ hp0]
    have : pow2 (-126) * pow2 126 = 1 := by rw [← pow2_add]; simp [pow2_eq]
    have hx := _root_.mul_le_mul_of_nonneg_left h2 (pow2_pos (-126)).le
    linarith
  have hq2 : 1 / p ≤ pow2 100 := by
    rw [div_le_iff₀ hp0]
    have : pow2 100 * pow2 (-100) = 1 := by rw [← pow2_add]; simp [pow2_eq]
    have hx := _root_.mul_le_mul_of_nonneg_left h1 (pow2_pos 100).le
    linarith
  have hq0 : 0 < 1 / p := by positivity
  obtain ⟨hr, e, _⟩ := rnd_finite_of_abs_le (q := 1 / p) (b := pow2 100)
    ⟨onGrid_pow2 (by norm_num), by rw [abs_of_pos (pow2_pos _)]; exact pow2_lt (by norm_num)⟩
    (by rw [abs_of_pos hq0]; exact hq2)
  refine ⟨rndQ (1 / p), hr, ?_, ?_, ?_⟩
  · rw [one_def, div_fin hp0.ne', e]
  · have : pow2 (-126) ≤ rndQ (1 / p) := le_rndQ_of_onGrid (onGrid_pow2 (by norm_num)) hq1
    exact _root_.lt_of_lt_of_le (pow2_pos _) this
  · have hrel := abs_rndQ_sub_le_rel (q := 1 / p) (by rw [abs_of_pos hq0]; exact hq1)
    rw [abs_of_pos hq0] at hrel
    have h3 := (abs_le.1 hrel).2
    have h4 : p * rndQ (1 / p) ≤ p * (1 / p + 1 / p * pow2 (-24)) :=
      _root_.mul_le_mul_of_nonneg_left (by linarith) hp0.le
    have h5 : p * (1 / p + 1 / p * pow2 (-24)) = 1 + pow2 (-24) := by field_simp
    have h6 : pow2 (-24) = 1 / 2 ^ 24 := by rw [pow2_eq]; norm_num
    rw [← h6]; linarith

theorem rnd_tie_one : rnd (1 + 1 / 2 ^ 24) = 1 := by decide +kernel

/-- Scaling by at most `1/p` keeps magnitudes at most `p` inside `[-1, 1]`. -/
theorem scaled_le_one {x p g : F32} (hx : x.isFinite = true) (hxp : x.abs ≤ p)
    (hp : p = inf false ∨ (rnd (pow2 (-100)) ≤ p ∧ p ≤ rnd (pow2 126)))
    (hg0 : 0 ≤ g) (hg : g ≤ 1 / p) : (x * g).abs ≤ 1 := by
  obtain ⟨a, ha, rfl⟩ := isFinite_iff.1 hx
  rcases hp with rfl | ⟨h1, h2⟩
  · have : (1 : F32) / inf false = 0 := by rw [one_def]; exact fin_div_inf
    rw [this] at hg
    have hg' := le_antisymm hg hg0
    subst hg'
    rw [abs_mul, abs_fin, zero_def, abs_fin, mul_fin]
    simp [rnd_zero, zero_le_one]
  · have hA : OnGrid (pow2 (-100)) ∧ |pow2 (-100)| < pow2 128 :=
      ⟨onGrid_pow2 (by norm_num), by rw [abs_of_pos (pow2_pos _)]; exact pow2_lt (by norm_num)⟩
    have hB : OnGrid (pow2 126) ∧ |pow2 126| < pow2 128 :=
      ⟨onGrid_pow2 (by norm_num), by rw [abs_of_pos (pow2_pos _)]; exact pow2_lt (by norm_num)⟩
    rw [rnd_val hA] at h1
    rw [rnd_val hB] at h2
    obtain ⟨p, hp, rfl, hp1, hp2⟩ := between_cases h1 h2
    obtain ⟨r, hr, e, hr0, hr1⟩ := mul_recip_le_one hp hp1 hp2
    rw [e] at hg
    have hgz : fin 0 grid_zero ≤ g := by rw [← zero_def]; exact hg0
    obtain ⟨g, hgg, rfl, hg1, hg2⟩ := between_cases hgz hg
    rw [abs_fin] at hxp
    have hxp' := fin_le_fin.1 hxp
    rw [abs_mul, abs_fin, abs_fin, mul_fin, abs_of_nonneg hg1, ← rnd_tie_one]
    apply rnd_mono
    have hp0 : 0 ≤ p := _root_.le_trans (pow2_pos _).le hp1
    calc |a| * g ≤ p * r := _root_.mul_le_mul hxp' hg2 hg1 hp0
      _ ≤ _ := hr1

end F32

end Verif
