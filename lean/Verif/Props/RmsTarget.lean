/-
Property theorems C150: RMS normalisation brings a recording to its target level
(src/preprocessing/normalization.rs:325-398).
-/
import Verif.Props.PeakTarget
import Verif.Props.TempoFit
import Verif.Lemmas.Norm

namespace Verif.Props
open Verif Verif.Norm Verif.F32

/-! ### specification -/

/-- the level of a recording: the square of its RMS, in exact arithmetic -/
def levelSq (l : List F32) : ℚ := (l.map (fun x => x.val ^ 2)).sum / l.length

/-! ### the sum of the squares -/

/-- one rounded square -/
theorem sq_round {v : ℚ} {hv} (h : |v| ≤ 2 ^ 20) : ∃ hq, fin v hv * fin v hv = fin (rndQ (v * v)) hq ∧ 0 ≤ rndQ (v * v) ∧
    |rndQ (v * v) - v ^ 2| ≤ v ^ 2 / 2 ^ 24 + 1 / 2 ^ 150 := by
  have h2 : |v * v| ≤ 2 ^ 60 := by
    rw [_root_.abs_mul]
    calc |v| * |v| ≤ 2 ^ 20 * 2 ^ 20 := _root_.mul_le_mul h h (_root_.abs_nonneg _) (by positivity)
      _ ≤ 2 ^ 60 := by norm_num
  obtain ⟨hq, e⟩ := fin_of_le h2
  refine ⟨hq, by rw [mul_fin, e], rndQ_nonneg (mul_self_nonneg v), ?_⟩
  have := err_pow (v * v)
  rw [_root_.abs_of_nonneg (mul_self_nonneg v)] at this
  rw [pow_two]
  exact this

/-- the rounded squares, summed exactly -/
theorem sqs_exact : ∀ l : List F32, (∀ x ∈ l, x.isFinite = true ∧ |x.val| ≤ 2 ^ 20) →
    (∀ y ∈ l.map (fun x => x * x), y.isFinite = true ∧ 0 ≤ y.val) ∧
    |((l.map (fun x => x * x)).map F32.val).sum - (l.map (fun x => x.val ^ 2)).sum| ≤
      (l.map (fun x => x.val ^ 2)).sum / 2 ^ 24 + (l.length : ℚ) / 2 ^ 150 ∧ 0 ≤ (l.map (fun x => x.val ^ 2)).sum ∧
      (l.map (fun x => x.val ^ 2)).sum ≤ (l.length : ℚ) * 2 ^ 40
  | [], _ => by simp
  | x :: l, h => by
    obtain ⟨h1, h2, h3, h4⟩ := sqs_exact l (fun y hy => h y (by simp [hy]))
    obtain ⟨hx, hb⟩ := h x (by simp)
    obtain ⟨v, hv, rfl⟩ := isFinite_iff.1 hx
    obtain ⟨hq, e, e0, e1⟩ := sq_round (hv := hv) hb
    have hvv : v ^ 2 ≤ 2 ^ 40 := by
      have := sq_le_sq' (abs_le.1 hb).1 (abs_le.1 hb).2
      calc v ^ 2 ≤ (2 ^ 20) ^ 2 := this
        _ = 2 ^ 40 := by norm_num
    have hv0 : 0 ≤ v ^ 2 := by positivity
    refine ⟨?_, ?_, ?_, ?_⟩
    · intro y hy
      rw [List.map_cons, List.mem_cons] at hy
      rcases hy with rfl | hy
      · rw [e]; exact ⟨rfl, e0⟩
      · exact h1 y hy
    · simp only [List.map_cons, List.sum_cons, List.length_cons]
      rw [e]
      show |rndQ (v * v) + _ - (v ^ 2 + _)| ≤ (v ^ 2 + _) / 2 ^ 24 + _
      push_cast
      generalize ((l.map (fun x => x * x)).map F32.val).sum = A at *
      generalize (l.map (fun x => x.val ^ 2)).sum = B at *
      have := abs_add_le (rndQ (v * v) - v ^ 2) (A - B)
      rw [show rndQ (v * v) + A - (v ^ 2 + B) = (rndQ (v * v) - v ^ 2) + (A - B) by ring]
      rw [show (v ^ 2 + B) / 2 ^ 24 + ((l.length : ℚ) + 1) / 2 ^ 150 =
        (v ^ 2 / 2 ^ 24 + 1 / 2 ^ 150) + (B / 2 ^ 24 + l.length / 2 ^ 150) by ring]
      linarith
    · simp only [List.map_cons, List.sum_cons]
      show 0 ≤ v ^ 2 + _
      linarith
    · simp only [List.map_cons, List.sum_cons, List.length_cons]
      show v ^ 2 + _ ≤ _
      push_cast
      linarith

/-- the measured mean square, against the exact one -/
theorem meanSq_close {l : List F32} (hne : l ≠ []) (hl : l.length ≤ 2 ^ 16)
    (hfin : ∀ x ∈ l, x.isFinite = true ∧ |x.val| ≤ 2 ^ 20) (hloud : 1 / 2 ^ 50 ≤ levelSq l) :
    ∃ m hm, meanSq l = fin m hm ∧ |m - levelSq l| ≤ levelSq l * (((l.length : ℚ) + 4) / 2 ^ 23) ∧ levelSq l ≤ 2 ^ 40 := by
  obtain ⟨h1, h2, h3, h4⟩ := sqs_exact l hfin
  have hn1 : (1 : ℚ) ≤ l.length := by
    have := List.length_pos_iff.2 hne
    exact_mod_cast this
  have hn2 : (l.length : ℚ) ≤ 2 ^ 16 := by exact_mod_cast hl
  have hn0 : (0 : ℚ) < l.length := by linarith
  have hA : (l.map (fun x => x.val ^ 2)).sum = levelSq l * l.length := by unfold levelSq; field_simp
  rw [hA] at h2 h3 h4
  have hA1 : levelSq l ≤ 2 ^ 40 := by
    rw [_root_.mul_comm] at h4
    exact le_of_mul_le_mul_left h4 hn0
  have hAn : levelSq l * l.length ≤ 2 ^ 60 := by
    calc _ ≤ (2 : ℚ) ^ 40 * 2 ^ 16 := _root_.mul_le_mul hA1 hn2 hn0.le (by positivity)
      _ ≤ _ := by norm_num
  have h2' := abs_le.1 h2
  obtain ⟨S, hS, eS, hS0, hSe⟩ := sum_rel (l.map (fun x => x * x)) h1 (by linarith) (by
    rw [List.length_map]; omega)
  rw [List.length_map] at hSe
  generalize ((l.map (fun x => x * x)).map F32.val).sum = B at *
  have hmean : meanSq l = rnd (S / l.length) := by
    unfold meanSq
    rw [eS, ofNat_exact (by omega), div_fin hn0.ne']
  generalize (l.length : ℚ) = n at *
  generalize levelSq l = A at *
  have hA0 : 0 < A := _root_.lt_of_lt_of_le (by positivity) hloud
  set b := B / n with hb
  set s := S / n with hs
  have eB : B = b * n := by rw [hb]; field_simp
  have eS' : S = s * n := by rw [hs]; field_simp
  clear_value b s
  subst eB eS'
  -- divide by n
  have k1 : |b - A| ≤ A / 2 ^ 24 + 1 / 2 ^ 150 := by
    have : |b - A| * n ≤ (A / 2 ^ 24 + 1 / 2 ^ 150) * n := by
      rw [← abs_of_pos hn0, ← _root_.abs_mul, abs_of_pos hn0, _root_.sub_mul]
      calc _ ≤ _ := h2
        _ = _ := by ring
    exact le_of_mul_le_mul_right this hn0
  have k2 : |s - b| ≤ b * (n / 2 ^ 23) + 1 / 2 ^ 149 := by
    have : |s - b| * n ≤ (b * (n / 2 ^ 23) + 1 / 2 ^ 149) * n := by
      rw [← abs_of_pos hn0, ← _root_.abs_mul, abs_of_pos hn0, _root_.sub_mul]
      calc _ ≤ _ := hSe
        _ = _ := by ring
    exact le_of_mul_le_mul_right this hn0
  have k1' := abs_le.1 k1
  have k2' := abs_le.1 k2
  have small : (1 : ℚ) / 2 ^ 148 ≤ A / 2 ^ 90 := by
    calc (1 : ℚ) / 2 ^ 148 ≤ 1 / 2 ^ 50 / 2 ^ 90 := by norm_num
      _ ≤ _ := by gcongr
  have hd : n / 2 ^ 23 ≤ 1 / 2 ^ 7 := by rw [div_le_iff₀ (by positivity)]; norm_num at hn2 ⊢; linarith
  have hd0 : 0 ≤ n / 2 ^ 23 := by positivity
  have k3 : b * (n / 2 ^ 23) ≤ A * (n / 2 ^ 23) + A / 2 ^ 24 := by
    have : b - A ≤ A / 2 ^ 23 := by norm_num at small k1' ⊢; linarith [k1'.2]
    have := _root_.mul_le_mul_of_nonneg_right this hd0
    have h5 : A / 2 ^ 23 * (n / 2 ^ 23) ≤ A / 2 ^ 23 * (1 / 2 ^ 7) := by gcongr
    norm_num at this h5 ⊢
    linarith
  have k4 : |s - A| ≤ A * (n / 2 ^ 23) + A * (3 / 2 ^ 24) := by
    rw [abs_le]
    norm_num at k1' k2' k3 small ⊢
    constructor <;> linarith [k1'.1, k1'.2, k2'.1, k2'.2]
  have k4' := abs_le.1 k4
  have hs0 : 0 ≤ s := nonneg_of_mul_nonneg_left hS0 hn0
  have k5 : A * (n / 2 ^ 23) ≤ A * (1 / 2 ^ 7) := by gcongr
  have hs1 : s ≤ 2 * A := by norm_num at k4' k5 ⊢; linarith [k4'.2]
  obtain ⟨hm, em⟩ := fin_of_le (q := s) (by
    rw [_root_.abs_of_nonneg hs0]; norm_num at hA1 ⊢; linarith)
  refine ⟨rndQ s, hm, by rw [hmean, em], ?_, hA1⟩
  have he := err_pow s
  rw [_root_.abs_of_nonneg hs0] at he
  have he' := abs_le.1 he
  rw [show A * ((n + 4) / 2 ^ 23) = A * (n / 2 ^ 23) + A * (4 / 2 ^ 23) by ring, abs_le]
  norm_num at he' k4' small ⊢
  constructor <;> linarith [he'.1, he'.2, k4'.1, k4'.2]

/-- the measured RMS, against the exact one -/
theorem rms_close {l : List F32} (hne : l ≠ []) (hl : l.length ≤ 2 ^ 16)
    (hfin : ∀ x ∈ l, x.isFinite = true ∧ |x.val| ≤ 2 ^ 20) (hloud : 1 / 2 ^ 50 ≤ levelSq l) :
    ∃ r hr, F32.sqrt (meanSq l) = fin r hr ∧ 1 / 2 ^ 27 ≤ r ∧ r ≤ 2 ^ 21 ∧
      |r * r - levelSq l| ≤ levelSq l * (((l.length : ℚ) + 6) / 2 ^ 23) := by
  obtain ⟨m, hm, em, hme, hA1⟩ := meanSq_close hne hl hfin hloud
  have hn2 : (l.length : ℚ) ≤ 2 ^ 16 := by exact_mod_cast hl
  have hn0 : (0 : ℚ) ≤ l.length := by positivity
  generalize (l.length : ℚ) = n at *
  generalize levelSq l = A at *
  have hA0 : 0 < A := _root_.lt_of_lt_of_le (by positivity) hloud
  have hme' := abs_le.1 hme
  have hd : A * ((n + 4) / 2 ^ 23) ≤ A * (1 / 2 ^ 6) := by
    apply _root_.mul_le_mul_of_nonneg_left _ hA0.le
    rw [div_le_iff₀ (by positivity)]; norm_num at hn2 ⊢; linarith
  have hm1 : A * (63 / 64) ≤ m := by norm_num at hd hme' ⊢; linarith [hme'.1]
  have hm2 : m ≤ A * (65 / 64) := by norm_num at hd hme' ⊢; linarith [hme'.2]
  have hm0 : 0 ≤ m := by linarith
  have lo : 1 / 2 ^ 26 ≤ sqrtQ m := by
    refine le_sqrtQ (by decide +kernel) (by norm_num) ?_
    norm_num at hloud hm1 ⊢
    linarith
  have hi : sqrtQ m ≤ 2 ^ 21 := by
    refine sqrtQ_le (by decide +kernel) (by norm_num) ?_
    norm_num at hA1 hm2 ⊢
    linarith
  have hq0 := F32.sqrtQ_nonneg m
  obtain ⟨hr, er⟩ := fin_of_le (q := sqrtQ m) (by
    rw [_root_.abs_of_nonneg hq0]; norm_num at hi ⊢; linarith)
  have hsq := Chroma.round_sq (S := m) (y := sqrtQ m) (by norm_num at hloud hm1 ⊢; linarith)
    (_root_.lt_of_lt_of_le (by norm_num) lo) (Chroma.sqrtQ_sq (by norm_num at hloud hm1 ⊢; linarith))
  refine ⟨rndQ (sqrtQ m), hr, by rw [em, sqrt_fin hm0, er], ?_, ?_, ?_⟩
  · have := rndQ_mono lo
    have e : rndQ (1 / 2 ^ 26) = 1 / 2 ^ 26 := by decide +kernel
    rw [e] at this
    exact _root_.le_trans (by norm_num) this
  · have := rndQ_mono hi
    have e : rndQ (2 ^ 21) = 2 ^ 21 := by decide +kernel
    rw [e] at this
    exact this
  · have hsq' := abs_le.1 hsq
    rw [show A * ((n + 6) / 2 ^ 23) = A * ((n + 4) / 2 ^ 23) + A * (2 / 2 ^ 23) by ring, abs_le]
    generalize A * ((n + 4) / 2 ^ 23) = D at *
    generalize rndQ (sqrtQ m) * rndQ (sqrtQ m) = R at *
    norm_num at hsq' hme' hm2 ⊢
    constructor <;> linarith [hsq'.1, hsq'.2, hme'.1, hme'.2]

/-! ### the scaled samples -/

/-- one scaled sample, squared -/
theorem scaled_sq {v g : ℚ} {hv hg} (h : |v * g| ≤ 2) : (fin v hv * fin g hg).isFinite = true ∧
    |(fin v hv * fin g hg).val ^ 2 - v ^ 2 * g ^ 2| ≤ v ^ 2 * g ^ 2 * (3 / 2 ^ 24) + 1 / 2 ^ 140 := by
  obtain ⟨hq, e⟩ := fin_of_le (q := v * g) (_root_.le_trans h (by norm_num))
  rw [mul_fin, e]
  refine ⟨rfl, ?_⟩
  show |rndQ (v * g) ^ 2 - _| ≤ _
  rw [← mul_pow]
  have he := err_pow (v * g)
  generalize rndQ (v * g) = r at *
  generalize v * g = q at *
  rw [← sq_abs q, show r ^ 2 - |q| ^ 2 = (r - q) * (r + q) by rw [sq_abs]; ring, _root_.abs_mul]
  have h1 : |r + q| ≤ |q| * (2 + 1 / 2 ^ 24) + 1 / 2 ^ 150 := by
    have := abs_add_le (r - q) (2 * q)
    rw [show r - q + 2 * q = r + q by ring, _root_.abs_mul, abs_two] at this
    linarith
  have hq0 := _root_.abs_nonneg q
  calc |r - q| * |r + q| ≤ (|q| / 2 ^ 24 + 1 / 2 ^ 150) * (|q| * (2 + 1 / 2 ^ 24) + 1 / 2 ^ 150) :=
        _root_.mul_le_mul he h1 (_root_.abs_nonneg _) (by positivity)
    _ = |q| ^ 2 * ((2 + 1 / 2 ^ 24) / 2 ^ 24) + |q| * ((2 + 2 / 2 ^ 24) / 2 ^ 150) + 1 / 2 ^ 150 * (1 / 2 ^ 150) := by ring
    _ ≤ |q| ^ 2 * (3 / 2 ^ 24) + 2 * ((2 + 2 / 2 ^ 24) / 2 ^ 150) + 1 / 2 ^ 150 * (1 / 2 ^ 150) := by
        gcongr; norm_num
    _ ≤ |q| ^ 2 * (3 / 2 ^ 24) + 1 / 2 ^ 140 := by
        rw [_root_.add_assoc]
        gcongr
        norm_num

theorem scaled_sum {g : ℚ} {hg} : ∀ l : List F32, (∀ x ∈ l, x.isFinite = true ∧ |x.val * g| ≤ 2) →
    (∀ y ∈ l.map (· * fin g hg), y.isFinite = true) ∧
    |((l.map (· * fin g hg)).map (fun x => x.val ^ 2)).sum - (l.map (fun x => x.val ^ 2)).sum * g ^ 2| ≤
      (l.map (fun x => x.val ^ 2)).sum * g ^ 2 * (3 / 2 ^ 24) + (l.length : ℚ) / 2 ^ 140
  | [], _ => by simp
  | x :: l, h => by
    obtain ⟨h1, h2⟩ := scaled_sum (hg := hg) l (fun y hy => h y (by simp [hy]))
    obtain ⟨hx, hb⟩ := h x (by simp)
    obtain ⟨v, hv, rfl⟩ := isFinite_iff.1 hx
    obtain ⟨e0, e1⟩ := scaled_sq (hv := hv) (hg := hg) hb
    refine ⟨?_, ?_⟩
    · intro y hy
      rw [List.map_cons, List.mem_cons] at hy
      rcases hy with rfl | hy
      · exact e0
      · exact h1 y hy
    · simp only [List.map_cons, List.sum_cons, List.length_cons]
      push_cast
      generalize ((l.map (· * fin g hg)).map (fun x => x.val ^ 2)).sum = A at *
      generalize (l.map (fun x => x.val ^ 2)).sum = B at *
      generalize (fin v hv * fin g hg).val ^ 2 = R at *
      show |R + A - (v ^ 2 + B) * g ^ 2| ≤ (v ^ 2 + B) * g ^ 2 * _ + _
      have := abs_add_le (R - v ^ 2 * g ^ 2) (A - B * g ^ 2)
      rw [show R + A - (v ^ 2 + B) * g ^ 2 = (R - v ^ 2 * g ^ 2) + (A - B * g ^ 2) by ring,
        show (v ^ 2 + B) * g ^ 2 * (3 / 2 ^ 24) + ((l.length : ℚ) + 1) / 2 ^ 140 =
        (v ^ 2 * g ^ 2 * (3 / 2 ^ 24) + 1 / 2 ^ 140) + (B * g ^ 2 * (3 / 2 ^ 24) + l.length / 2 ^ 140) by ring]
      linarith

/-- the level of the scaled samples -/
theorem scaled_level {g : ℚ} {hg} {l : List F32} (hne : l ≠ []) (h : ∀ x ∈ l, x.isFinite = true ∧ |x.val * g| ≤ 2) :
    (∀ y ∈ l.map (· * fin g hg), y.isFinite = true) ∧
    |levelSq (l.map (· * fin g hg)) - levelSq l * g ^ 2| ≤ levelSq l * g ^ 2 * (3 / 2 ^ 24) + 1 / 2 ^ 140 := by
  obtain ⟨h1, h2⟩ := scaled_sum (hg := hg) l h
  refine ⟨h1, ?_⟩
  have hn0 : (0 : ℚ) < l.length := by
    have := List.length_pos_iff.2 hne
    exact_mod_cast this
  unfold levelSq
  rw [List.length_map]
  generalize ((l.map (· * fin g hg)).map (fun x => x.val ^ 2)).sum = A at *
  generalize (l.map (fun x => x.val ^ 2)).sum = B at *
  generalize (l.length : ℚ) = n at *
  have : |A / n - B / n * g ^ 2| * n ≤ (B / n * g ^ 2 * (3 / 2 ^ 24) + 1 / 2 ^ 140) * n := by
    rw [← abs_of_pos hn0, ← _root_.abs_mul, abs_of_pos hn0]
    rw [show (A / n - B / n * g ^ 2) * n = A - B * g ^ 2 by field_simp,
      show (B / n * g ^ 2 * (3 / 2 ^ 24) + 1 / 2 ^ 140) * n = B * g ^ 2 * (3 / 2 ^ 24) + n / 2 ^ 140 by field_simp]
    exact h2
  exact le_of_mul_le_mul_right this hn0

/-! ### the gain -/

theorem gain_level {A r t g d : ℚ} (hA : 0 < A) (hr : 0 < r) (ht : 0 < t) (hd : d ≤ 1 / 64)
    (h : |r * r - A| ≤ A * d) (hg : |g - t / r| ≤ t / r * (1 / 2 ^ 24)) :
    |A * g ^ 2 - t ^ 2| ≤ t ^ 2 * (64 / 63 * d + 4 / 2 ^ 24) := by
  set u := A / (r * r) with hu
  set w := g * r / t with hw
  have hu0 : 0 < u := by positivity
  have e1 : A * g ^ 2 = t ^ 2 * (u * w ^ 2) := by rw [hu, hw]; field_simp
  have h' := abs_le.1 h
  have hw1 : |w - 1| ≤ 1 / 2 ^ 24 := by
    have : w - 1 = (g - t / r) * (r / t) := by rw [hw]; field_simp
    rw [this, _root_.abs_mul, abs_of_pos (show 0 < r / t by positivity)]
    calc _ ≤ t / r * (1 / 2 ^ 24) * (r / t) := _root_.mul_le_mul_of_nonneg_right hg (by positivity)
      _ = _ := by field_simp
  have hu1 : |u - 1| ≤ u * d := by
    have e : u - 1 = -((r * r - A) * (1 / (r * r))) := by rw [hu]; field_simp; ring
    rw [e, abs_neg, _root_.abs_mul, abs_of_pos (show 0 < 1 / (r * r) by positivity)]
    calc _ ≤ A * d * (1 / (r * r)) := _root_.mul_le_mul_of_nonneg_right h (by positivity)
      _ = _ := by rw [hu]; ring
  have hd0 : 0 ≤ d := by
    have := _root_.le_trans (_root_.abs_nonneg _) h
    exact nonneg_of_mul_nonneg_right this hA
  clear_value u w
  rw [e1]
  have hu2 : u ≤ 64 / 63 := by
    have h1 := (abs_le.1 hu1).2
    have h2 : u * d ≤ u * (1 / 64) := by gcongr
    linarith
  have h3 : |u - 1| ≤ 64 / 63 * d := _root_.le_trans hu1 (by gcongr)
  have h4 : |w ^ 2 - 1| ≤ 3 / 2 ^ 24 := by
    have h5 := abs_le.1 hw1
    rw [abs_le]
    norm_num at h5 ⊢
    constructor <;> nlinarith [h5.1, h5.2]
  have h6 : |u * w ^ 2 - 1| ≤ 64 / 63 * d + 4 / 2 ^ 24 := by
    rw [show u * w ^ 2 - 1 = u * (w ^ 2 - 1) + (u - 1) by ring]
    have := abs_add_le (u * (w ^ 2 - 1)) (u - 1)
    rw [_root_.abs_mul, abs_of_pos hu0] at this
    have h7 : u * |w ^ 2 - 1| ≤ 64 / 63 * (3 / 2 ^ 24) :=
      _root_.mul_le_mul hu2 h4 (_root_.abs_nonneg _) (by norm_num)
    norm_num at h7 ⊢
    linarith
  rw [show t ^ 2 * (u * w ^ 2) - t ^ 2 = t ^ 2 * (u * w ^ 2 - 1) by ring, _root_.abs_mul,
    abs_of_pos (show 0 < t ^ 2 by positivity)]
  gcongr

/-- One pass of RMS normalisation: every sample times one gain, which is the quotient of the target and the measured RMS,
or one over the peak where that gain would bring the peak over full scale. -/
theorem rms_pass {M : Libm} {samples : List F32} {c : Config} {sr : F32} (hc : c.method = .rms)
    (hne : samples ≠ []) (hl : samples.length ≤ 2 ^ 16)
    (hfin : ∀ x ∈ samples, x.isFinite = true ∧ |x.val| ≤ 2 ^ 20) (hloud : 1 / 2 ^ 50 ≤ levelSq samples)
    {t : ℚ} {ht} (hT : M.powf 10 ((c.targetLufs + 3 - c.headroomDb) / 20) = fin t ht) (ht0 : 1 / 2 ^ 20 ≤ t) (ht1 : t ≤ 1) :
    ∃ m k hk g p, normalize M samples c sr = .ok (samples.map (· * fin k hk), m) ∧ 0 ≤ k ∧ 0 < g ∧
      |levelSq samples * g ^ 2 - t ^ 2| ≤ t ^ 2 * (64 / 63 * (((samples.length : ℚ) + 6) / 2 ^ 23) + 4 / 2 ^ 24) ∧
      (∀ x ∈ samples, |x.val| ≤ p) ∧ (∃ x ∈ samples, p = |x.val|) ∧
      ((k = g ∧ p * g ≤ 1 + 1 / 2 ^ 23) ∨ (k ≤ g ∧ 1 < p * g ∧ |p * k - 1| ≤ 1 / 2 ^ 23)) := by
  obtain ⟨r, hr, er, hr0, hr1, hre⟩ := rms_close hne hl hfin hloud
  have hA0 : 0 < levelSq samples := _root_.lt_of_lt_of_le (by positivity) hloud
  have hrp : 0 < r := _root_.lt_of_lt_of_le (by positivity) hr0
  have htp : 0 < t := _root_.lt_of_lt_of_le (by positivity) ht0
  have hn2 : (samples.length : ℚ) ≤ 2 ^ 16 := by exact_mod_cast hl
  have hn0 : (0 : ℚ) ≤ samples.length := by positivity
  -- the gain
  have hq0 : 1 / 2 ^ 41 ≤ t / r := by
    rw [le_div_iff₀ hrp]
    calc 1 / 2 ^ 41 * r ≤ 1 / 2 ^ 41 * 2 ^ 21 := by gcongr
      _ = 1 / 2 ^ 20 := by norm_num
      _ ≤ t := ht0
  have hq1 : t / r ≤ 2 ^ 27 := by
    rw [div_le_iff₀ hrp]
    calc t ≤ 1 := ht1
      _ = 2 ^ 27 * (1 / 2 ^ 27) := by norm_num
      _ ≤ 2 ^ 27 * r := by gcongr
  have hqp : 0 < t / r := by positivity
  obtain ⟨hg, eg⟩ := fin_of_le (q := t / r) (by rw [abs_of_pos hqp]; exact _root_.le_trans hq1 (by norm_num))
  have hge : |rndQ (t / r) - t / r| ≤ t / r * (1 / 2 ^ 24) := by
    have e24 : pow2 (-24) = 1 / 2 ^ 24 := by rw [pow2_eq]; norm_num
    have e126 : pow2 (-126) = 1 / 2 ^ 126 := by rw [pow2_eq]; norm_num
    have := abs_rndQ_sub_le_rel (q := t / r) (by rw [abs_of_pos hqp, e126]; exact _root_.le_trans (by norm_num) hq0)
    rwa [abs_of_pos hqp, e24] at this
  have hgp : 0 < rndQ (t / r) := by
    have := (abs_le.1 hge).1
    norm_num at this
    linarith
  have hd : ((samples.length : ℚ) + 6) / 2 ^ 23 ≤ 1 / 64 := by
    rw [div_le_iff₀ (by positivity)]
    linarith [show (2 : ℚ) ^ 16 + 6 ≤ 1 / 64 * 2 ^ 23 by norm_num]
  have hQ := gain_level hA0 hrp htp hd hre hge
  generalize rndQ (t / r) = g at *
  -- the peak
  have hnn : ∀ x ∈ samples, x ≠ F32.nan := fun x hx h => by have := (hfin x hx).1; rw [h] at this; simp [F32.isFinite] at this
  obtain ⟨p, hp, ep, hp0, hpub, hpm⟩ : ∃ p hp, peakOf samples = fin p hp ∧ 0 ≤ p ∧ (∀ x ∈ samples, |x.val| ≤ p) ∧
      (p = 0 ∨ ∃ x ∈ samples, p = |x.val|) := by
    obtain ⟨-, pub, pmem⟩ := peakOf_spec samples
    have key : ∃ p hp, peakOf samples = fin p hp ∧ 0 ≤ p ∧ (p = 0 ∨ ∃ x ∈ samples, p = |x.val|) := by
      rcases pmem with h | ⟨x, hx, h⟩
      · exact ⟨0, grid_zero, by rw [h, zero_def], _root_.le_refl _, .inl rfl⟩
      · obtain ⟨v, hv, rfl⟩ := isFinite_iff.1 (hfin x hx).1
        rw [abs_fin] at h
        exact ⟨|v|, abs_aux hv, h, _root_.abs_nonneg _, .inr ⟨_, hx, rfl⟩⟩
    obtain ⟨p, hp, e, h0, hm⟩ := key
    refine ⟨p, hp, e, h0, fun y hy => ?_, hm⟩
    obtain ⟨w, hw, rfl⟩ := isFinite_iff.1 (hfin y hy).1
    have := pub _ hy (by simp)
    rw [e, abs_fin] at this
    exact fin_le_fin.1 this
  have hp1 : p ≤ 2 ^ 20 := by
    rcases hpm with rfl | ⟨x, hx, rfl⟩
    · norm_num
    · exact (hfin x hx).2
  have hg1 : g ≤ 2 ^ 28 := by
    have := (abs_le.1 hge).2
    norm_num at this hq1 ⊢
    linarith
  have hpg0 : 0 ≤ p * g := by positivity
  obtain ⟨hpg, epg⟩ := fin_of_le (q := p * g) (by
    rw [_root_.abs_of_nonneg hpg0]
    calc p * g ≤ 2 ^ 20 * 2 ^ 28 := by gcongr
      _ ≤ 2 ^ 60 := by norm_num)
  have h1f : (1 : F32) = fin 1 grid_one := one_def
  have hEPS : ¬ fin r hr ≤ EPS := by
    apply F32.not_le_of_lt
    have h1 : EPS < rnd (1 / 2 ^ 27) := by decide +kernel
    refine F32.lt_of_lt_of_le h1 ?_
    rw [rnd_val (by decide +kernel)]
    exact fin_le_fin.2 hr0
  have hpm' : ∃ x ∈ samples, p = |x.val| := by
    rcases hpm with rfl | h
    · obtain ⟨x, hx⟩ := List.exists_mem_of_ne_nil _ hne
      exact ⟨x, hx, _root_.le_antisymm (_root_.abs_nonneg _) (hpub x hx)⟩
    · exact h
  unfold normalize
  rw [hc]
  simp only [normalizeRms]
  rw [if_neg hne, er, if_neg hEPS, hT, div_fin hrp.ne', eg, ep, mul_fin, epg]
  by_cases hlim : (1 : F32) < fin (rndQ (p * g)) hpg
  · -- limited
    rw [if_pos hlim]
    rw [h1f, fin_lt_fin] at hlim
    have hpg1 : 1 < p * g := by
      by_contra hcon
      have := rndQ_mono (not_lt.1 hcon)
      have e : rndQ 1 = 1 := by decide +kernel
      rw [e] at this
      linarith
    have hpp : 0 < p := by
      rcases hp0.lt_or_eq with h | h
      · exact h
      · rw [← h] at hpg1; norm_num at hpg1
    have hinv : 1 / p ≤ g := by
      rw [div_le_iff₀ hpp]; linarith
    have hip : 0 < 1 / p := by positivity
    obtain ⟨hk, ek⟩ := fin_of_le (q := 1 / p) (by
      rw [abs_of_pos hip]; exact _root_.le_trans hinv (_root_.le_trans hg1 (by norm_num)))
    have hk1 : rndQ (1 / p) ≤ g := by
      have := rndQ_mono hinv
      have e : rndQ g = g := hg.1
      rwa [e] at this
    have hk0 : 0 ≤ rndQ (1 / p) := rndQ_nonneg hip.le
    have hke := err_pow (1 / p)
    rw [abs_of_pos hip] at hke
    have hpk : |p * rndQ (1 / p) - 1| ≤ 1 / 2 ^ 23 := by
      rw [show p * rndQ (1 / p) - 1 = p * (rndQ (1 / p) - 1 / p) by field_simp, _root_.abs_mul, abs_of_pos hpp]
      calc p * |rndQ (1 / p) - 1 / p| ≤ p * (1 / p / 2 ^ 24 + 1 / 2 ^ 150) := by gcongr
        _ = 1 / 2 ^ 24 + p / 2 ^ 150 := by field_simp
        _ ≤ 1 / 2 ^ 24 + 2 ^ 20 / 2 ^ 150 := by gcongr
        _ ≤ 1 / 2 ^ 23 := by norm_num
    have hmax : (1 : F32) / fin p hp = fin (rndQ (1 / p)) hk := by rw [h1f, div_fin hpp.ne', ek]
    rw [hmax]
    exact ⟨_, rndQ (1 / p), hk, g, p, rfl, hk0, hgp, hQ, hpub, hpm', .inr ⟨hk1, hpg1, hpk⟩⟩
  · rw [if_neg hlim]
    rw [h1f, fin_lt_fin, not_lt] at hlim
    have hke := err_pow (p * g)
    rw [_root_.abs_of_nonneg hpg0] at hke
    have hpg2 : p * g ≤ 1 + 1 / 2 ^ 23 := by
      have := (abs_le.1 hke).1
      norm_num at this ⊢
      linarith
    exact ⟨_, g, hg, g, p, rfl, hgp.le, hgp, hQ, hpub, hpm', .inl ⟨rfl, hpg2⟩⟩

/-- **C150 (the target level, partial).** RMS normalisation of up to `2^16` finite samples at a level above `2^-25`: the
RMS of the result never exceeds the target `10^((target + 3 - headroom) / 20)` by more than rounding, and reaches it up
to rounding whenever the target leaves room for the peak (the limiter does not act). The level is compared as its
square, in exact arithmetic. Missing: longer recordings, where the single-precision sum stops growing
(`C150_violated`). -/
theorem C150_target_partial (M : Libm) (samples : List F32) (c : Config) (sr : F32) (hc : c.method = .rms)
    (hne : samples ≠ []) (hl : samples.length ≤ 2 ^ 16)
    (hfin : ∀ x ∈ samples, x.isFinite = true ∧ |x.val| ≤ 2 ^ 20) (hloud : 1 / 2 ^ 50 ≤ levelSq samples)
    (t : ℚ) (ht) (hT : M.powf 10 ((c.targetLufs + 3 - c.headroomDb) / 20) = fin t ht) (ht0 : 1 / 2 ^ 20 ≤ t) (ht1 : t ≤ 1) :
    ∃ out m, normalize M samples c sr = .ok (out, m) ∧ out.length = samples.length ∧ (∀ y ∈ out, y.isFinite = true) ∧
      levelSq out ≤ t ^ 2 * (1 + ((samples.length : ℚ) + 16) / 2 ^ 22) ∧
      ((∀ x ∈ samples, (x.val * t) ^ 2 ≤ 15 / 16 * levelSq samples) →
        t ^ 2 * (1 - ((samples.length : ℚ) + 16) / 2 ^ 22) ≤ levelSq out) := by
  obtain ⟨m, k, hk, g, p, e, hk0, hgp, hQ, hpub, hpm, hcase⟩ := rms_pass (sr := sr) hc hne hl hfin hloud hT ht0 ht1
  have hA0 : 0 < levelSq samples := _root_.lt_of_lt_of_le (by positivity) hloud
  have hn2 : (samples.length : ℚ) ≤ 2 ^ 16 := by exact_mod_cast hl
  have hd : ((samples.length : ℚ) + 6) / 2 ^ 23 ≤ 1 / 64 := by
    rw [div_le_iff₀ (by positivity)]
    linarith [show (2 : ℚ) ^ 16 + 6 ≤ 1 / 64 * 2 ^ 23 by norm_num]
  have htp : 0 < t := _root_.lt_of_lt_of_le (by positivity) ht0
  have hsmall : (1 : ℚ) / 2 ^ 140 ≤ t ^ 2 * (1 / 2 ^ 24) := by
    calc (1 : ℚ) / 2 ^ 140 ≤ (1 / 2 ^ 20) ^ 2 * (1 / 2 ^ 24) := by norm_num
      _ ≤ _ := by gcongr
  have hQ' := abs_le.1 hQ
  have ht2 : 0 < t ^ 2 := by positivity
  have hdd : t ^ 2 * (64 / 63 * (((samples.length : ℚ) + 6) / 2 ^ 23) + 4 / 2 ^ 24) ≤ t ^ 2 * (1 / 32) := by
    apply _root_.mul_le_mul_of_nonneg_left _ ht2.le
    norm_num at hd ⊢
    linarith
  have hfinal : t ^ 2 * (64 / 63 * (((samples.length : ℚ) + 6) / 2 ^ 23) + 4 / 2 ^ 24) + t ^ 2 * (8 / 2 ^ 24) ≤
      t ^ 2 * (((samples.length : ℚ) + 16) / 2 ^ 22) := by
    rw [← _root_.mul_add]
    apply _root_.mul_le_mul_of_nonneg_left _ ht2.le
    have : (0 : ℚ) ≤ samples.length := by positivity
    linarith
  have hexp : t ^ 2 * (1 + ((samples.length : ℚ) + 16) / 2 ^ 22) = t ^ 2 + t ^ 2 * (((samples.length : ℚ) + 16) / 2 ^ 22) := by ring
  have hexp' : t ^ 2 * (1 - ((samples.length : ℚ) + 16) / 2 ^ 22) = t ^ 2 - t ^ 2 * (((samples.length : ℚ) + 16) / 2 ^ 22) := by ring
  rw [hexp, hexp']
  generalize t ^ 2 * (64 / 63 * (((samples.length : ℚ) + 6) / 2 ^ 23) + 4 / 2 ^ 24) = D at *
  generalize t ^ 2 * (((samples.length : ℚ) + 16) / 2 ^ 22) = E at *
  have hpk : p * k ≤ 2 := by
    rcases hcase with ⟨rfl, h⟩ | ⟨-, -, h⟩
    · norm_num at h; linarith
    · have := (abs_le.1 h).2
      norm_num at this; linarith
  obtain ⟨s1, s2⟩ := scaled_level (hg := hk) hne (fun x hx => ⟨(hfin x hx).1, by
    rw [_root_.abs_mul, _root_.abs_of_nonneg hk0]
    exact _root_.le_trans (_root_.mul_le_mul_of_nonneg_right (hpub x hx) hk0) hpk⟩)
  have s2' := abs_le.1 s2
  have hkg : k ≤ g := by
    rcases hcase with ⟨rfl, -⟩ | ⟨h, -⟩
    · exact _root_.le_refl _
    · exact h
  have hk2 : levelSq samples * k ^ 2 ≤ levelSq samples * g ^ 2 := by gcongr
  refine ⟨_, m, e, by simp, s1, ?_, fun hroom => ?_⟩
  · generalize levelSq samples * k ^ 2 = X at *
    norm_num at s2' hsmall hdd hfinal ⊢
    linarith [hQ'.2, s2'.2]
  · rcases hcase with ⟨rfl, -⟩ | ⟨-, h1g, -⟩
    · generalize levelSq samples * k ^ 2 = X at *
      norm_num at s2' hsmall hdd hfinal ⊢
      linarith [hQ'.1, hQ'.2, s2'.1]
    · -- the limiter does not act on such samples
      exfalso
      obtain ⟨x, hx, hxp⟩ := hpm
      have h1 := hroom x hx
      rw [mul_pow, ← sq_abs x.val, ← hxp] at h1
      have h2 : p ^ 2 * t ^ 2 * g ^ 2 ≤ 15 / 16 * levelSq samples * g ^ 2 := by gcongr
      have h3 : t ^ 2 * 1 < t ^ 2 * (p * g) ^ 2 := by
        apply mul_lt_mul_of_pos_left _ ht2
        nlinarith
      have h4 : t ^ 2 * (p * g) ^ 2 = p ^ 2 * t ^ 2 * g ^ 2 := by ring
      have h5 : 15 / 16 * levelSq samples * g ^ 2 = 15 / 16 * (levelSq samples * g ^ 2) := by ring
      linarith [hQ'.2]

/-! ### twice -/

/-- the second gain is close to one -/
theorem gain_one {A t g d E : ℚ} (hA : 0 < A) (hg : 0 < g) (ht : 0 < t) (hd0 : 0 ≤ d) (hd : d ≤ 1 / 32) (hE0 : 0 ≤ E)
    (hE : E ≤ 1 / 60) (h : |A * g ^ 2 - t ^ 2| ≤ t ^ 2 * d) (hA1 : A ≤ t ^ 2 * (1 + E)) :
    1 - d - E ≤ g ∧ (t ^ 2 * (1 - E) ≤ A → g ≤ 1 + 64 / 62 * (d + E)) := by
  have ht2 : 0 < t ^ 2 := by positivity
  have h' := abs_le.1 h
  constructor
  · by_contra hc
    have hc := not_le.1 hc
    have h1 : g ^ 2 < 1 - d - E := by
      have : g ^ 2 ≤ g * 1 := by rw [pow_two]; apply _root_.mul_le_mul_of_nonneg_left _ hg.le; linarith
      linarith
    have h2 : A * g ^ 2 < A * (1 - d - E) := mul_lt_mul_of_pos_left h1 hA
    have h3 : A * (1 - d - E) ≤ t ^ 2 * (1 + E) * (1 - d - E) :=
      _root_.mul_le_mul_of_nonneg_right hA1 (by linarith)
    have h4 : t ^ 2 * (1 + E) * (1 - d - E) = t ^ 2 - t ^ 2 * d - t ^ 2 * (E * d + E * E) := by ring
    have h5 : 0 ≤ t ^ 2 * (E * d + E * E) := by positivity
    linarith [h'.1]
  · intro hA2
    by_contra hc
    have hc := not_le.1 hc
    have hb : 0 ≤ 64 / 62 * (d + E) := by positivity
    have h1 : 1 + 64 / 62 * (d + E) < g ^ 2 := by
      have : g * 1 ≤ g ^ 2 := by rw [pow_two]; apply _root_.mul_le_mul_of_nonneg_left _ hg.le; linarith
      linarith
    have h2 : A * (1 + 64 / 62 * (d + E)) < A * g ^ 2 := mul_lt_mul_of_pos_left h1 hA
    have h3 : t ^ 2 * (1 - E) * (1 + 64 / 62 * (d + E)) ≤ A * (1 + 64 / 62 * (d + E)) :=
      _root_.mul_le_mul_of_nonneg_right hA2 (by linarith)
    have h6 : 1 + d ≤ (1 - E) * (1 + 64 / 62 * (d + E)) := by
      have : 59 / 60 * (64 / 62 * (d + E)) ≤ (1 - E) * (64 / 62 * (d + E)) := by
        apply _root_.mul_le_mul_of_nonneg_right _ hb; linarith
      linarith
    have h4 : t ^ 2 * (1 + d) ≤ t ^ 2 * ((1 - E) * (1 + 64 / 62 * (d + E))) := by gcongr
    have h5 : t ^ 2 * (1 + d) = t ^ 2 + t ^ 2 * d := by ring
    have h7 : t ^ 2 * ((1 - E) * (1 + 64 / 62 * (d + E))) = t ^ 2 * (1 - E) * (1 + 64 / 62 * (d + E)) := by ring
    linarith [h'.2]

/-- one scaled sample: its value and its size -/
theorem scaled_mag {v k : ℚ} {hv hk} (hk0 : 0 ≤ k) (h : |v| * k ≤ 2) : (fin v hv * fin k hk).isFinite = true ∧
    (fin v hv * fin k hk).val = rndQ (v * k) ∧ |rndQ (v * k) - v * k| ≤ |v| * k / 2 ^ 24 + 1 / 2 ^ 150 ∧
    |v| * k - (|v| * k / 2 ^ 24 + 1 / 2 ^ 150) ≤ |rndQ (v * k)| ∧
    |rndQ (v * k)| ≤ |v| * k + (|v| * k / 2 ^ 24 + 1 / 2 ^ 150) := by
  have e : |v * k| = |v| * k := by rw [_root_.abs_mul, _root_.abs_of_nonneg hk0]
  obtain ⟨hq, eq⟩ := fin_of_le (q := v * k) (by rw [e]; exact _root_.le_trans h (by norm_num))
  have he := err_pow (v * k)
  rw [e] at he
  have h3 := _root_.abs_sub_abs_le_abs_sub (rndQ (v * k)) (v * k)
  have h4 := _root_.abs_sub_abs_le_abs_sub (v * k) (rndQ (v * k))
  rw [abs_sub_comm] at h4
  rw [e] at h3 h4
  rw [mul_fin, eq]
  exact ⟨rfl, rfl, he, by linarith, by linarith⟩

theorem levelSq_ge {l : List F32} {y : F32} (hy : y ∈ l) (hl : l.length ≤ 2 ^ 16) : y.val ^ 2 / 2 ^ 16 ≤ levelSq l := by
  have hn0 : (0 : ℚ) < l.length := by
    have := List.length_pos_iff.2 (List.ne_nil_of_mem hy)
    exact_mod_cast this
  have hn2 : (l.length : ℚ) ≤ 2 ^ 16 := by exact_mod_cast hl
  have h : y.val ^ 2 ≤ (l.map (fun x => x.val ^ 2)).sum :=
    List.single_le_sum (by intro q hq; obtain ⟨x, -, rfl⟩ := List.mem_map.1 hq; positivity) _
      (List.mem_map.2 ⟨y, hy, rfl⟩)
  unfold levelSq
  calc y.val ^ 2 / 2 ^ 16 ≤ y.val ^ 2 / l.length := by gcongr
    _ ≤ _ := by gcongr

/-- **C150 (twice is the same as once, partial).** Normalising the result again moves no sample by more than rounding:
one part in `2^21` per sample of the recording, or the smallest positive number. Holds whether the limiter acts or not.
Missing as in `C150_target_partial`. -/
theorem C150_twice_partial (M : Libm) (samples : List F32) (c : Config) (sr : F32) (hc : c.method = .rms)
    (hne : samples ≠ []) (hl : samples.length ≤ 2 ^ 16)
    (hfin : ∀ x ∈ samples, x.isFinite = true ∧ |x.val| ≤ 2 ^ 20) (hloud : 1 / 2 ^ 50 ≤ levelSq samples)
    (t : ℚ) (ht) (hT : M.powf 10 ((c.targetLufs + 3 - c.headroomDb) / 20) = fin t ht) (ht0 : 1 / 2 ^ 20 ≤ t) (ht1 : t ≤ 1) :
    ∃ once m twice m', normalize M samples c sr = .ok (once, m) ∧ normalize M once c sr = .ok (twice, m') ∧
      twice.length = once.length ∧
      ∀ (i : ℕ) (y z : F32), once[i]? = some y → twice[i]? = some z →
        z.isFinite = true ∧ |z.val - y.val| ≤ |y.val| * (((samples.length : ℚ) + 24) / 2 ^ 21) + 1 / 2 ^ 149 := by
  obtain ⟨m, k, hk, g, p, e, hk0, hgp, hQ, hpub, ⟨x0, hx0, hxp⟩, hcase⟩ :=
    rms_pass (sr := sr) hc hne hl hfin hloud hT ht0 ht1
  obtain ⟨out, m1, e1, hlen, hof, hlev, -⟩ := C150_target_partial M samples c sr hc hne hl hfin hloud t ht hT ht0 ht1
  have eo : out = samples.map (· * fin k hk) := by
    rw [e] at e1
    simp only [Except.ok.injEq, Prod.mk.injEq] at e1
    exact e1.1.symm
  have hA0 : 0 < levelSq samples := _root_.lt_of_lt_of_le (by positivity) hloud
  have hn1 : (1 : ℚ) ≤ samples.length := by
    have := List.length_pos_iff.2 hne
    exact_mod_cast this
  have hn2 : (samples.length : ℚ) ≤ 2 ^ 16 := by exact_mod_cast hl
  have htp : 0 < t := _root_.lt_of_lt_of_le (by positivity) ht0
  have ht2 : 0 < t ^ 2 := by positivity
  have hpk : p * k ≤ 1 + 1 / 2 ^ 23 := by
    rcases hcase with ⟨rfl, h⟩ | ⟨-, -, h⟩
    · exact h
    · linarith [(abs_le.1 h).2]
  have hpk2 : p * k ≤ 2 := by norm_num at hpk; linarith
  have hxk : ∀ x ∈ samples, |x.val| * k ≤ p * k := fun x hx => _root_.mul_le_mul_of_nonneg_right (hpub x hx) hk0
  -- the samples of the first result
  have hout : ∀ y ∈ out, |y.val| ≤ 1 + 1 / 2 ^ 22 := by
    intro y hy
    rw [eo] at hy
    obtain ⟨x, hx, rfl⟩ := List.mem_map.1 hy
    have hxk' := hxk x hx
    obtain ⟨v, hv, rfl⟩ := isFinite_iff.1 (hfin x hx).1
    obtain ⟨-, s2, -, -, s5⟩ := scaled_mag (hv := hv) (hk := hk) hk0 (_root_.le_trans hxk' hpk2)
    show |(fin v hv * fin k hk).val| ≤ _
    rw [s2]
    change |v| * k ≤ p * k at hxk'
    norm_num at s5 hpk ⊢
    linarith
  have htop : g = k ∨ ∃ y ∈ out, 1 - 1 / 2 ^ 21 ≤ |y.val| := by
    rcases hcase with ⟨h, -⟩ | ⟨-, -, h⟩
    · exact .inl h.symm
    · right
      refine ⟨x0 * fin k hk, by rw [eo]; exact List.mem_map.2 ⟨x0, hx0, rfl⟩, ?_⟩
      have hxk' := hxk x0 hx0
      obtain ⟨v, hv, rfl⟩ := isFinite_iff.1 (hfin x0 hx0).1
      obtain ⟨-, s2, -, s4, -⟩ := scaled_mag (hv := hv) (hk := hk) hk0 (_root_.le_trans hxk' hpk2)
      rw [s2]
      change p = |v| at hxp
      rw [← hxp] at s4
      have := (abs_le.1 h).1
      norm_num at s4 this ⊢
      linarith
  have hsmall : (1 : ℚ) / 2 ^ 140 ≤ t ^ 2 * (1 / 2 ^ 24) := by
    calc (1 : ℚ) / 2 ^ 140 ≤ (1 / 2 ^ 20) ^ 2 * (1 / 2 ^ 24) := by norm_num
      _ ≤ _ := by gcongr
  set d := 64 / 63 * (((samples.length : ℚ) + 6) / 2 ^ 23) + 4 / 2 ^ 24 with hd
  set E := ((samples.length : ℚ) + 16) / 2 ^ 22 with hE
  set F := ((samples.length : ℚ) + 24) / 2 ^ 21 with hF
  have hd0 : 0 ≤ d := by positivity
  have hE0 : 0 ≤ E := by positivity
  have hd1 : d ≤ 1 / 32 := by
    have : ((samples.length : ℚ) + 6) / 2 ^ 23 ≤ 1 / 64 := by
      rw [div_le_iff₀ (by positivity)]
      linarith [show (2 : ℚ) ^ 16 + 6 ≤ 1 / 64 * 2 ^ 23 by norm_num]
    rw [hd]
    linarith
  have hE1 : E ≤ 1 / 60 := by
    rw [hE, div_le_iff₀ (by positivity)]
    linarith [show (2 : ℚ) ^ 16 + 16 ≤ 1 / 60 * 2 ^ 22 by norm_num]
  have hdE : d + 8 / 2 ^ 24 ≤ E := by
    rw [hd, hE]; linarith
  have hF1 : 64 / 62 * (d + E) + 2 / 2 ^ 24 ≤ F := by
    rw [hd, hE, hF]; linarith
  have hF2 : 1 / 2 ^ 19 + 2 / 2 ^ 24 ≤ F := by
    rw [hF]; linarith
  have hF3 : F ≤ 1 / 2 := by
    rw [hF, div_le_iff₀ (by positivity)]
    linarith [show (2 : ℚ) ^ 16 + 24 ≤ 1 / 2 * 2 ^ 21 by norm_num]
  -- the level of the first result
  have hlow : g = k → t ^ 2 * (1 - E) ≤ levelSq out := by
    intro hgk
    subst hgk
    obtain ⟨-, s2⟩ := scaled_level (hg := hk) hne (fun x hx => ⟨(hfin x hx).1, by
      rw [_root_.abs_mul, _root_.abs_of_nonneg hk0]
      exact _root_.le_trans (hxk x hx) hpk2⟩)
    rw [← eo] at s2
    have s2' := abs_le.1 s2
    have hQ' := abs_le.1 hQ
    have h1 : t ^ 2 * (d + 8 / 2 ^ 24) ≤ t ^ 2 * E := by gcongr
    have h2 : t ^ 2 * d ≤ t ^ 2 * (1 / 32) := by gcongr
    generalize levelSq samples * g ^ 2 = X at *
    norm_num at s2' hsmall h1 h2 ⊢
    linarith [hQ'.1, hQ'.2, s2'.1]
  have hloud' : 1 / 2 ^ 50 ≤ levelSq out := by
    rcases htop with h | ⟨y, hy, hy1⟩
    · refine _root_.le_trans ?_ (hlow h)
      calc (1 : ℚ) / 2 ^ 50 ≤ (1 / 2 ^ 20) ^ 2 * (1 - 1 / 60) := by norm_num
        _ ≤ t ^ 2 * (1 - E) := by gcongr
    · refine _root_.le_trans ?_ (levelSq_ge hy (by rw [hlen]; exact hl))
      rw [← sq_abs]
      calc (1 : ℚ) / 2 ^ 50 ≤ (1 - 1 / 2 ^ 21) ^ 2 / 2 ^ 16 := by norm_num
        _ ≤ _ := by gcongr
  have hne' : out ≠ [] := by rw [eo]; simpa using hne
  obtain ⟨m', k', hk', g', p', e', hk0', hgp', hQ2, hpub', ⟨x1, hx1, hxp'⟩, hcase'⟩ :=
    rms_pass (sr := sr) hc hne' (by rw [hlen]; exact hl)
      (fun y hy => ⟨hof y hy, _root_.le_trans (hout y hy) (by norm_num)⟩) hloud' hT ht0 ht1
  rw [hlen, ← hd] at hQ2
  have hA' : 0 < levelSq out := _root_.lt_of_lt_of_le (by positivity) hloud'
  obtain ⟨glo, ghi⟩ := gain_one hA' hgp' htp hd0 hd1 hE0 hE1 hQ2 hlev
  have hp' : p' ≤ 1 + 1 / 2 ^ 22 := hxp' ▸ hout x1 hx1
  have hp0' : 0 ≤ p' := hxp' ▸ _root_.abs_nonneg _
  have hkg' : k' ≤ g' := by
    rcases hcase' with ⟨rfl, -⟩ | ⟨h, -⟩
    · exact _root_.le_refl _
    · exact h
  have hpk' : p' * k' ≤ 1 + 1 / 2 ^ 23 := by
    rcases hcase' with ⟨rfl, h⟩ | ⟨-, -, h⟩
    · exact h
    · linarith [(abs_le.1 h).2]
  have hk1 : |k' - 1| ≤ F - 2 / 2 ^ 24 := by
    rw [abs_le]
    constructor
    · rcases hcase' with ⟨rfl, -⟩ | ⟨-, -, h⟩
      · linarith
      · have h1 := (abs_le.1 h).1
        have h2 : p' * k' ≤ (1 + 1 / 2 ^ 22) * k' := _root_.mul_le_mul_of_nonneg_right hp' hk0'
        have h3 : 1 - 1 / 2 ^ 19 ≤ k' := by
          norm_num at h1 h2 ⊢
          linarith
        linarith
    · rcases htop with h | ⟨y, hy, hy1⟩
      · linarith [ghi (hlow h)]
      · have h2 : (1 - 1 / 2 ^ 21) * k' ≤ p' * k' :=
          _root_.mul_le_mul_of_nonneg_right (_root_.le_trans hy1 (hpub' y hy)) hk0'
        have h3 : k' ≤ 1 + 1 / 2 ^ 19 := by
          norm_num at hpk' h2 ⊢
          linarith
        linarith
  refine ⟨out, m1, _, m', e1, e', by simp, ?_⟩
  intro i y z hy hz
  rw [List.getElem?_map, hy] at hz
  simp only [Option.map_some, Option.some.injEq] at hz
  subst hz
  have hmem := List.mem_of_getElem? hy
  have hyk : |y.val| * k' ≤ 2 := by
    have := _root_.mul_le_mul_of_nonneg_right (hpub' y hmem) hk0'
    norm_num at hpk' ⊢
    linarith
  obtain ⟨w, hw, rfl⟩ := isFinite_iff.1 (hof y hmem)
  obtain ⟨s1, s2, s3, -, -⟩ := scaled_mag (hv := hw) (hk := hk') hk0' hyk
  refine ⟨s1, ?_⟩
  rw [s2]
  show |rndQ (w * k') - w| ≤ |w| * F + 1 / 2 ^ 149
  have h2 : |w * k' - w| ≤ |w| * (F - 2 / 2 ^ 24) := by
    rw [show w * k' - w = w * (k' - 1) by ring, _root_.abs_mul]
    exact _root_.mul_le_mul_of_nonneg_left hk1 (_root_.abs_nonneg w)
  have h3 : |w| * k' ≤ |w| * 2 := by
    apply _root_.mul_le_mul_of_nonneg_left _ (_root_.abs_nonneg w)
    have := (abs_le.1 hk1).2
    linarith
  have h4 := _root_.abs_sub_le (rndQ (w * k')) (w * k') w
  have h5 : |w| * k' / 2 ^ 24 ≤ |w| * 2 / 2 ^ 24 := by gcongr
  have h6 : |w| * (F - 2 / 2 ^ 24) + |w| * 2 / 2 ^ 24 = |w| * F := by ring
  norm_num at s3 h5 h6 h2 ⊢
  linarith

/-! ### long recordings -/

/-- a sum of ones stops growing at `2^24` -/
theorem sum_ones_stalls : ∀ n : ℕ, 2 ^ 24 ≤ n → F32.sum (List.replicate n (1 : F32)) = fin (2 ^ 24) (by decide +kernel) := by
  intro n hn
  induction n, hn using Nat.le_induction with
  | base =>
    rw [one_def, sum_replicate_exact (fun k hk => by rw [mul_one]; exact grid_nat hk), mul_one]
    decide +kernel
  | succ n _ ih =>
    rw [List.replicate_succ']
    unfold F32.sum at ih ⊢
    rw [List.foldl_append, ih]
    decide +kernel

/-- **C150 (violated for long recordings).** A recording of `2^26` samples (25 minutes at 44.1 kHz) at full scale, of
whatever signs, is measured at half its level, because the single-precision sum of the squares stops growing after
`2^24` samples. So for every target of at most one half every sample of the result has twice the target level, 6 dB too
loud, and no limiter acts. -/
theorem C150_violated (M : Libm) (samples : List F32) (c : Config) (sr : F32) (hc : c.method = .rms)
    (hl : samples.length = 2 ^ 26) (hfull : ∀ x ∈ samples, x = 1 ∨ x = -1)
    (t : ℚ) (ht) (hT : M.powf 10 ((c.targetLufs + 3 - c.headroomDb) / 20) = fin t ht) (ht0 : 0 < t) (ht1 : t ≤ 1 / 2)
    (ht2 : OnGrid (2 * t)) :
    ∃ out m, normalize M samples c sr = .ok (out, m) ∧ levelSq samples = 1 ∧ levelSq out = (2 * t) ^ 2 := by
  have hne : samples ≠ [] := by rintro rfl; norm_num at hl
  have hsq : samples.map (fun x => x * x) = List.replicate (2 ^ 26) 1 := by
    rw [List.eq_replicate_iff]
    refine ⟨by rw [List.length_map, hl], fun y hy => ?_⟩
    obtain ⟨x, hx, rfl⟩ := List.mem_map.1 hy
    rcases hfull x hx with rfl | rfl <;> decide +kernel
  have hms : F32.sqrt (meanSq samples) = fin (1 / 2) (by decide +kernel) := by
    unfold meanSq
    rw [hsq, sum_ones_stalls _ (by norm_num), hl]
    decide +kernel
  have hpk : peakOf samples = 1 := by
    obtain ⟨h0, pub, pm⟩ := peakOf_spec samples
    have hab : ∀ x ∈ samples, x.abs = 1 := fun x hx => by rcases hfull x hx with rfl | rfl <;> decide +kernel
    rcases pm with h | ⟨x, hx, h⟩
    · obtain ⟨x, hx⟩ := List.exists_mem_of_ne_nil _ hne
      have := pub x hx (by rcases hfull x hx with rfl | rfl <;> decide +kernel)
      rw [h, hab x hx] at this
      exact absurd this (by decide +kernel)
    · rw [h, hab x hx]
  have h2t : OnGrid (2 * t) ∧ |2 * t| < pow2 128 := ⟨ht2, by
    rw [abs_of_pos (by linarith)]
    have : (1 : ℚ) < pow2 128 := by decide +kernel
    linarith⟩
  have hgain : fin t ht / fin (1 / 2) (by decide +kernel) = fin (2 * t) h2t := by
    rw [div_fin (by norm_num), show t / (1 / 2) = 2 * t by ring, rnd_val h2t]
  have h1g : (1 : F32) * fin (2 * t) h2t = fin (2 * t) h2t := by rw [one_def, mul_fin, one_mul, rnd_val h2t]
  have hlim : ¬ (1 : F32) < fin (2 * t) h2t := by
    rw [one_def, fin_lt_fin, not_lt]; linarith
  have hlev : ∀ (l : List F32) (q : ℚ), l.length = 2 ^ 26 → (∀ x ∈ l, x.val ^ 2 = q) → levelSq l = q := by
    intro l q hlen hq
    unfold levelSq
    have : l.map (fun x => x.val ^ 2) = List.replicate (2 ^ 26) q := by
      rw [List.eq_replicate_iff]
      refine ⟨by rw [List.length_map, hlen], fun y hy => ?_⟩
      obtain ⟨x, hx, rfl⟩ := List.mem_map.1 hy
      exact hq x hx
    rw [this, List.sum_replicate, hlen]
    simp only [nsmul_eq_mul]
    push_cast
    field_simp
  unfold normalize
  rw [hc]
  simp only [normalizeRms]
  rw [if_neg hne, hms, if_neg (by decide +kernel), hT, hgain, hpk, h1g, if_neg hlim]
  refine ⟨_, _, rfl, hlev _ _ hl fun x hx => ?_, hlev _ _ (by rw [List.length_map, hl]) fun y hy => ?_⟩
  · rcases hfull x hx with rfl | rfl <;> decide +kernel
  · obtain ⟨x, hx, rfl⟩ := List.mem_map.1 hy
    rcases hfull x hx with rfl | rfl
    · rw [h1g]; rfl
    · have e : (-1 : F32) = fin (-1) (by decide +kernel) := by decide +kernel
      have h3 : OnGrid (-(2 * t)) ∧ |-(2 * t)| < pow2 128 := neg_aux h2t
      rw [e, mul_fin, show -1 * (2 * t) = -(2 * t) by ring, rnd_val h3]
      show (-(2 * t)) ^ 2 = _
      ring

/-! Non-vacuity: two samples at a level of about 0.4 brought to 0.01; a full-scale recording with a target of 0.01. -/
example : (∀ x ∈ ([0.5, -0.25] : List F32), x.isFinite = true ∧ |x.val| ≤ 2 ^ 20) ∧
    1 / 2 ^ 50 ≤ levelSq [0.5, -0.25] ∧
    (∃ t ht, Libm.demo.powf 10 ((-37 + 3 - 6) / 20) = fin t ht ∧ 1 / 2 ^ 20 ≤ t ∧ t ≤ 1 ∧
      ∀ x ∈ ([0.5, -0.25] : List F32), (x.val * t) ^ 2 ≤ 15 / 16 * levelSq [0.5, -0.25]) := by
  exact ⟨by decide +kernel, by decide +kernel, (0.01 : F32).val, by decide +kernel, by decide +kernel,
    by decide +kernel, by decide +kernel, by decide +kernel⟩
example : ∃ (samples : List F32) (t : ℚ) (ht : _), samples.length = 2 ^ 26 ∧ (∀ x ∈ samples, x = 1 ∨ x = -1) ∧
    Libm.demo.powf 10 ((-37 + 3 - 6) / 20) = fin t ht ∧ 0 < t ∧ t ≤ 1 / 2 ∧ OnGrid (2 * t) :=
  ⟨List.replicate (2 ^ 26) 1, (0.01 : F32).val, by decide +kernel, List.length_replicate,
    fun x hx => .inl (List.eq_of_mem_replicate hx), by decide +kernel, by decide +kernel, by decide +kernel, by decide +kernel⟩

end Verif.Props
