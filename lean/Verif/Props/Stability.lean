import Verif.F32.Sqrt
import Verif.Props.Grid
import Mathlib.Tactic.IntervalCases

/-! Property theorems for claim C30: the stability score of a beat grid. -/

namespace Verif.Props

open Verif Verif.Beat F32

theorem stability_unfold {beats : List BeatPos} {bpm : F32} (h2 : 2 ≤ beats.length) (hb : ¬ bpm ≤ 0)
    (hg : gaps (beats.map BeatPos.time) ≠ []) (hm : ¬ mean (gaps (beats.map BeatPos.time)) ≤ EPS) :
    stability beats bpm = .ok (1 / (1 + F32.sqrt (variance (gaps (beats.map BeatPos.time))
      (mean (gaps (beats.map BeatPos.time)))) / mean (gaps (beats.map BeatPos.time)))) := by
  unfold stability
  rw [if_neg (by omega), if_neg hb, posIntervals_eq]
  dsimp only
  rw [if_neg hg, if_neg hm]

/-- **C30** (degenerate inputs): the score is 0 with fewer than two beats and when no interval is positive; a
non-positive BPM is refused. -/
theorem C30_zero (beats : List BeatPos) (bpm : F32) :
    (beats.length < 2 → stability beats bpm = .ok 0) ∧
    (2 ≤ beats.length → bpm ≤ 0 → stability beats bpm = R.err .invalidInput) ∧
    (2 ≤ beats.length → ¬ bpm ≤ 0 → gaps (beats.map BeatPos.time) = [] → stability beats bpm = .ok 0) := by
  refine ⟨fun h => ?_, fun h hb => ?_, fun h hb hg => ?_⟩
  · unfold stability; rw [if_pos h]
  · unfold stability; rw [if_neg (by omega), if_pos hb]
  · unfold stability; rw [if_neg (by omega), if_neg hb, posIntervals_eq]
    dsimp only; rw [if_pos hg]

/-- non-vacuity: two beats in decreasing order have no positive interval -/
example : gaps ([⟨1, 1⟩, ⟨0, 1⟩].map BeatPos.time) = [] ∧ stability [⟨1, 1⟩, ⟨0, 1⟩] 120 = .ok 0 := by decide +kernel

theorem sum_sat_aux {l : List F32} (h : ∀ x ∈ l, 0 ≤ x ∧ x ≤ rnd (pow2 101)) : ∀ a : F32, 0 ≤ a → a ≤ rnd (pow2 126) →
    l.foldl (· + ·) a ≤ rnd (pow2 126) := by
  induction l with
  | nil => intro a _ ha; exact ha
  | cons x l ih =>
    intro a ha0 ha
    have hx := h x (by simp)
    rw [List.foldl_cons]
    refine ih (fun y hy => h y (by simp [hy])) _ (F32.add_nonneg ha0 hx.1) ?_
    have hn := ne_nan_right (F32.add_nonneg ha0 hx.1)
    exact F32.le_trans (F32.add_le_add ha hx.2 hn (by decide +kernel)) (by decide +kernel)

/-- **C30** (range; partial: beat times within 2^100 seconds, any number of beats a `Vec` can hold): the score is in
[0,1].  Beyond that range the mean overflows and the score is NaN, see `C30_violated_nan`. -/
theorem C30_range_partial (beats : List BeatPos) (bpm s : F32) (hlen : beats.length < 2 ^ 64)
    (hr : ∀ b ∈ beats, -rnd (pow2 100) ≤ b.time ∧ b.time ≤ rnd (pow2 100)) (h : stability beats bpm = .ok s) :
    0 ≤ s ∧ s ≤ 1 := by
  have h01 : (0 : F32) ≤ 0 ∧ (0 : F32) ≤ 1 := by decide +kernel
  by_cases h2 : beats.length < 2
  · unfold stability at h; rw [if_pos h2] at h; cases h; exact h01
  by_cases hb : bpm ≤ 0
  · unfold stability at h; rw [if_neg h2, if_pos hb] at h; simp at h
  by_cases hg : gaps (beats.map BeatPos.time) = []
  · rw [(C30_zero beats bpm).2.2 (by omega) hb hg] at h; cases h; exact h01
  by_cases hm : mean (gaps (beats.map BeatPos.time)) ≤ EPS
  · unfold stability at h
    rw [if_neg h2, if_neg hb, posIntervals_eq] at h
    dsimp only at h
    rw [if_neg hg, if_pos hm] at h; cases h; exact h01
  rw [stability_unfold (by omega) hb hg hm] at h
  cases h
  have hgap : ∀ x ∈ gaps (beats.map BeatPos.time), 0 ≤ x ∧ x ≤ rnd (pow2 101) := by
    intro x hx
    obtain ⟨x0, a, ha, b, hb, e⟩ := mem_gaps hx
    refine ⟨F32.le_of_lt x0, ?_⟩
    obtain ⟨a', ha', rfl⟩ := List.mem_map.1 ha
    obtain ⟨b', hb', rfl⟩ := List.mem_map.1 hb
    have ra := hr a' ha'
    have rb := hr b' hb'
    obtain ⟨hP, eP⟩ : ∃ h, rnd (pow2 100) = fin (pow2 100) h := ⟨by decide +kernel, by decide +kernel⟩
    obtain ⟨hQ, eQ⟩ : ∃ h, rnd (pow2 101) = fin (pow2 101) h := ⟨by decide +kernel, by decide +kernel⟩
    rw [eP, neg_fin] at ra rb
    obtain ⟨u, hu, eu, u1, u2⟩ := between_cases ra.1 ra.2
    obtain ⟨w, hw, ew, w1, w2⟩ := between_cases rb.1 rb.2
    rw [e, eu, ew, sub_fin, eQ]
    apply rnd_le_fin
    have : pow2 101 = pow2 100 * 2 := by rw [show (101 : ℤ) = 100 + 1 by norm_num, pow2_add]; norm_num [pow2]
    linarith
  have hlen' : (gaps (beats.map BeatPos.time)).length ≤ beats.length := by
    unfold gaps
    refine _root_.le_trans (List.length_filter_le _ _) ?_
    simp
  have hpos : 0 < (gaps (beats.map BeatPos.time)).length := List.length_pos_of_ne_nil hg
  generalize gaps (beats.map BeatPos.time) = iv at *
  have hs0 := F32.sum_nonneg (fun x hx => (hgap x hx).1)
  have hs1 : F32.sum iv ≤ rnd (pow2 126) := sum_sat_aux hgap 0 (F32.le_refl zero_ne_nan) (by decide +kernel)
  have hN : ∃ w hw, F32.ofNat iv.length = fin w hw ∧ 1 ≤ w := by
    have hf := ofNat_finite (n := iv.length) (by omega)
    have ho := one_le_ofNat hpos
    rcases nonneg_cases (ofNat_nonneg iv.length) with e | ⟨w, hw, e, _⟩
    · rw [e] at hf; simp [isFinite] at hf
    · rw [e, one_def] at ho
      exact ⟨w, hw, e, fin_le_fin.1 ho⟩
  obtain ⟨w, hw, eN, w1⟩ := hN
  -- the mean is finite and positive
  obtain ⟨t, ht, em, t0⟩ : ∃ t ht, mean iv = fin t ht ∧ 0 < t := by
    obtain ⟨hQ, eQ⟩ : ∃ h, rnd (pow2 126) = fin (pow2 126) h := ⟨by decide +kernel, by decide +kernel⟩
    rw [eQ] at hs1; rw [zero_def] at hs0
    obtain ⟨q, hq, eq, q0, q1⟩ := between_cases hs0 hs1
    unfold mean at hm ⊢
    rw [eq, eN, div_fin (by linarith)] at hm ⊢
    obtain ⟨hz, ez, _⟩ := rnd_finite_of_abs_le (q := q / w) hQ (by
      rw [abs_of_nonneg (by positivity)]
      exact _root_.le_trans (div_le_self q0 w1) q1)
    rw [ez] at hm ⊢
    refine ⟨_, hz, rfl, ?_⟩
    by_contra hc
    apply hm
    refine F32.le_trans ?_ (by decide +kernel : (0 : F32) ≤ EPS)
    rw [zero_def]; exact fin_le_fin.2 (not_lt.1 hc)
  rw [em]
  -- the variance is non-negative, possibly infinite
  have hsq : ∀ x ∈ iv.map (fun x => let d := x - fin t ht; d * d), 0 ≤ x := by
    intro y hy
    obtain ⟨x, hx, rfl⟩ := List.mem_map.1 hy
    obtain ⟨x0, x1⟩ := hgap x hx
    obtain ⟨hQ, eQ⟩ : ∃ h, rnd (pow2 101) = fin (pow2 101) h := ⟨by decide +kernel, by decide +kernel⟩
    rw [eQ] at x1; rw [zero_def] at x0
    obtain ⟨q, hq, rfl, _, _⟩ := between_cases x0 x1
    dsimp only
    rw [sub_fin]
    rcases hd : rnd (q - t) with _ | s | ⟨z, hz⟩
    · exact absurd hd (rnd_ne_nan _)
    · cases s <;> decide +kernel
    · rw [mul_fin]; exact rnd_nonneg (mul_self_nonneg z)
  have hv0 := F32.sum_nonneg hsq
  have hv : 0 ≤ variance iv (fin t ht) := by
    unfold variance
    rw [eN]
    rcases nonneg_cases hv0 with e | ⟨z, hz, e, z0⟩
    · rw [e, inf_div_fin, decide_eq_false (by linarith)]; decide +kernel
    · rw [e, div_fin (by linarith)]; exact rnd_nonneg (by positivity)
  have hsr := sqrt_nonneg hv
  have hcv : 0 ≤ F32.sqrt (variance iv (fin t ht)) / fin t ht := by
    rcases nonneg_cases hsr with e | ⟨z, hz, e, z0⟩
    · rw [e, inf_div_fin, decide_eq_false (by linarith)]; decide +kernel
    · rw [e, div_fin (by linarith)]; exact rnd_nonneg (by positivity)
  generalize F32.sqrt (variance iv (fin t ht)) / fin t ht = cv at hcv
  rcases nonneg_cases hcv with rfl | ⟨z, hz, rfl, z0⟩
  · decide +kernel
  · rw [one_def, add_fin]
    have h1 : (1 : F32) ≤ rnd (1 + z) := by rw [one_def]; exact fin_le_rnd (by linarith)
    rcases hd : rnd (1 + z) with _ | s | ⟨y, hy⟩
    · exact absurd hd (rnd_ne_nan _)
    · rw [hd] at h1
      cases s
      · rw [fin_div_inf]; decide +kernel
      · exact absurd h1 (by decide +kernel)
    · rw [hd, one_def] at h1
      have hy1 := fin_le_fin.1 h1
      rw [div_fin (by linarith)]
      refine ⟨rnd_nonneg (by positivity), ?_⟩
      rw [← one_def]
      rw [one_def]
      exact rnd_le_fin (by rw [div_le_one₀ (by linarith)]; exact hy1)

/-- non-vacuity: irregular beats, some of them out of order -/
example : (∀ b ∈ ([⟨0, 1⟩, ⟨2, 1⟩, ⟨1, 1⟩, ⟨7, 1⟩] : List BeatPos), -rnd (pow2 100) ≤ b.time ∧ b.time ≤ rnd (pow2 100)) ∧
    stability [⟨0, 1⟩, ⟨2, 1⟩, ⟨1, 1⟩, ⟨7, 1⟩] 120 = .ok (2 / 3) := by decide +kernel

/-- **C30 violated** (range): two finite beat times far apart give a NaN score. -/
theorem C30_violated_nan : stability [⟨-3e38, 1⟩, ⟨3e38, 1⟩] 120 = .ok nan := by decide +kernel

/-- **C30 violated** (perfect regularity): four beats at a 68 BPM spacing, all three intervals equal as f32 numbers; the
score is not 1, because the rounded mean differs from the interval. -/
theorem C30_violated_equal :
    ∃ d : F32, gaps [-(60 / 68), 0, 60 / 68, 2 * (60 / 68)] = [d, d, d] ∧
      (match stability [⟨-(60 / 68), 1⟩, ⟨0, 1⟩, ⟨60 / 68, 1⟩, ⟨2 * (60 / 68), 1⟩] 68 with
        | .ok s => decide (s < 1) | .error _ => false) = true := ⟨60 / 68, by decide +kernel⟩

/-! Equal intervals -/

theorem gaps_equal {times : List F32} {d : F32} (hd : 0 < d)
    (heq : ∀ i, (h : i + 1 < times.length) → times[i + 1] - times[i] = d) :
    gaps times = List.replicate (times.length - 1) d := by
  unfold gaps
  have hz : List.zipWith (fun a b => b - a) times times.tail = List.replicate (times.length - 1) d := by
    apply List.ext_getElem
    · simp
    · intro i h1 h2
      simp only [List.length_replicate] at h2
      simpa using heq i (by omega)
  rw [hz]; simp [hd]

theorem sum_replicate_exact {d : ℚ} {hd} : ∀ {n : ℕ}, (∀ k ≤ n, OnGrid ((k : ℚ) * d) ∧ |(k : ℚ) * d| < pow2 128) →
    F32.sum (List.replicate n (fin d hd)) = rnd ((n : ℚ) * d)
  | 0, _ => by simp [F32.sum, rnd_zero]
  | n + 1, h => by
    have ih := sum_replicate_exact (hd := hd) (n := n) (fun k hk => h k (by omega))
    rw [List.replicate_succ']
    unfold F32.sum at ih ⊢
    rw [List.foldl_append, ih]
    simp only [List.foldl_cons, List.foldl_nil]
    rw [rnd_val (h n (by omega)), add_fin]
    congr 1
    push_cast; ring

/-- **C30** (perfect regularity, exact arithmetic): when all intervals are equal and their running sums are f32 numbers
(for instance 0.5 s apart), the score is exactly 1. -/
theorem C30_equal_exact (beats : List BeatPos) (bpm : F32) (d : ℚ) (hd) (hb : ¬ bpm ≤ 0) (h2 : 2 ≤ beats.length)
    (h24 : beats.length ≤ 2 ^ 24) (hE : (1e-10 : F32) < fin d hd)
    (heq : ∀ i, (h : i + 1 < beats.length) → beats[i + 1].time - beats[i].time = fin d hd)
    (hex : ∀ k < beats.length, OnGrid ((k : ℚ) * d) ∧ |(k : ℚ) * d| < pow2 128) :
    stability beats bpm = .ok 1 := by
  have hd0 : 0 < fin d hd := F32.lt_trans (by decide +kernel) hE
  have hgap := gaps_equal (times := beats.map BeatPos.time) (d := fin d hd) hd0 (by
    intro i h; simp only [List.length_map] at h; simpa using heq i h)
  rw [List.length_map] at hgap
  have hsum := sum_replicate_exact (hd := hd) (n := beats.length - 1) (fun k hk => hex k (by omega))
  have hn0 : ((beats.length - 1 : ℕ) : ℚ) ≠ 0 := by exact_mod_cast (by omega : beats.length - 1 ≠ 0)
  have hmean : mean (gaps (beats.map BeatPos.time)) = fin d hd := by
    rw [hgap]; unfold mean
    rw [hsum, List.length_replicate, rnd_val (hex _ (by omega)), ofNat_exact (by omega), div_fin hn0,
      mul_div_cancel_left₀ _ hn0, rnd_val hd]
  have hne : gaps (beats.map BeatPos.time) ≠ [] := by rw [hgap]; simp; omega
  have hm : ¬ mean (gaps (beats.map BeatPos.time)) ≤ EPS := by
    rw [hmean]; intro hc; exact F32.lt_irrefl _ (F32.lt_of_lt_of_le hE hc)
  rw [stability_unfold h2 hb hne hm, hmean]
  have hvar : variance (gaps (beats.map BeatPos.time)) (fin d hd) = 0 := by
    rw [hgap]; unfold variance
    have h0 : (fin d hd - fin d hd) * (fin d hd - fin d hd) = (0 : F32) := by
      rw [sub_fin, sub_self, rnd_zero]; decide +kernel
    have hs : ∀ n, F32.sum (List.replicate n (0 : F32)) = 0 := by
      intro n
      have := sum_replicate_exact (hd := grid_zero) (n := n) (d := 0) (fun k _ => by simp; exact grid_zero)
      rw [mul_zero, rnd_zero, ← zero_def] at this
      exact this
    simp only [List.map_replicate, h0, hs, List.length_replicate]
    rw [ofNat_exact (by omega), zero_def, div_fin hn0, zero_div, rnd_zero, zero_def]
  rw [hvar]
  have hs0 : F32.sqrt 0 = 0 := by decide +kernel
  rw [zero_def] at hd0
  have := fin_lt_fin.1 hd0
  rw [hs0, zero_def, div_fin (by linarith), zero_div, rnd_zero]
  decide +kernel

/-- non-vacuity: five beats half a second apart -/
example : (∀ i, (h : i + 1 < ([⟨0, 1⟩, ⟨0.5, 1⟩, ⟨1, 1⟩, ⟨1.5, 1⟩, ⟨2, 1⟩] : List BeatPos).length) →
    ([⟨0, 1⟩, ⟨0.5, 1⟩, ⟨1, 1⟩, ⟨1.5, 1⟩, ⟨2, 1⟩] : List BeatPos)[i + 1].time -
      ([⟨0, 1⟩, ⟨0.5, 1⟩, ⟨1, 1⟩, ⟨1.5, 1⟩, ⟨2, 1⟩] : List BeatPos)[i].time = fin (1 / 2) (by decide +kernel)) ∧
    (∀ k : ℕ, k < 5 → OnGrid ((k : ℚ) * (1 / 2)) ∧ |(k : ℚ) * (1 / 2)| < pow2 128) := by
  constructor
  · intro i h
    have h7 : i < 4 := Nat.lt_of_succ_lt_succ h
    interval_cases i <;> decide +kernel +revert
  · intro k hk
    interval_cases k <;> decide +kernel +revert

theorem sum_nil0 : F32.sum ([] : List F32) = fin 0 grid_zero := by rw [← zero_def]; rfl

theorem step_up {S d c : ℚ} {k : ℕ} (hk : k ≤ 4096) (hc0 : 0 ≤ c) (hcd : c ≤ d) (hd : 1 / 2 ^ 100 ≤ d) (h0 : 0 ≤ S)
    (h : S ≤ k * d * (1 + k / 2 ^ 23)) : rndQ (S + c) ≤ ((k + 1 : ℕ) : ℚ) * d * (1 + ((k + 1 : ℕ) : ℚ) / 2 ^ 23) := by
  have h1 := rndQ_up (q := S + c) (by linarith)
  have hkq : (k : ℚ) ≤ 4096 := by exact_mod_cast hk
  have hk0 : (0 : ℚ) ≤ k := by positivity
  have hd0 : 0 < d := lt_of_lt_of_le (by norm_num) hd
  refine _root_.le_trans h1 ?_
  have he : (eta : ℚ) ≤ d * (1 / 2 ^ 40) := by
    unfold eta
    have : (1 : ℚ) / 2 ^ 100 * (1 / 2 ^ 40) ≤ d * (1 / 2 ^ 40) := by
      apply _root_.mul_le_mul_of_nonneg_right hd; norm_num
    norm_num at this ⊢; linarith
  have h2 : (S + c) * (1 + eps) ≤ (k * d * (1 + k / 2 ^ 23) + d) * (1 + eps) := by
    apply _root_.mul_le_mul_of_nonneg_right (by linarith); unfold eps; norm_num
  have h3 : ((k : ℚ) * d * (1 + k / 2 ^ 23) + d) * (1 + eps) + d * (1 / 2 ^ 40) ≤
      ((k + 1 : ℕ) : ℚ) * d * (1 + ((k + 1 : ℕ) : ℚ) / 2 ^ 23) := by
    have h4 : ((k : ℚ) * (1 + k / 2 ^ 23) + 1) * (1 + eps) + (1 / 2 ^ 40) ≤
        ((k + 1 : ℕ) : ℚ) * (1 + ((k + 1 : ℕ) : ℚ) / 2 ^ 23) := by
      push_cast; unfold eps; norm_num
      nlinarith
    have := _root_.mul_le_mul_of_nonneg_right h4 hd0.le
    push_cast at this ⊢
    nlinarith [this]
  linarith

theorem sum_up {d : ℚ} (hd : 1 / 2 ^ 100 ≤ d) (hd' : d ≤ 2 ^ 100) : ∀ (l : List F32), l.length ≤ 4096 →
    (∀ x ∈ l, ∃ q hq, x = fin q hq ∧ 0 ≤ q ∧ q ≤ d) →
    ∃ S hS, F32.sum l = fin S hS ∧ 0 ≤ S ∧ S ≤ l.length * d * (1 + l.length / 2 ^ 23) := by
  intro l
  induction l using List.reverseRecOn with
  | nil => intro _ _; exact ⟨0, grid_zero, sum_nil0, _root_.le_refl _, by simp⟩
  | append_singleton l x ih =>
    intro hl hx
    rw [List.length_append, List.length_singleton] at hl
    obtain ⟨S, hS, e, S0, S1⟩ := ih (by omega) (fun y hy => hx y (by simp [hy]))
    obtain ⟨q, hq, rfl, q0, q1⟩ := hx x (by simp)
    have hstep := step_up (k := l.length) (by omega) q0 q1 hd S0 S1
    have hsum : F32.sum (l ++ [fin q hq]) = rnd (S + q) := by
      unfold F32.sum at e ⊢
      rw [List.foldl_append, e]; simp only [List.foldl_cons, List.foldl_nil]; rw [add_fin]
    have hlq : (l.length : ℚ) ≤ 4095 := by exact_mod_cast (by omega : l.length ≤ 4095)
    have hl0 : (0 : ℚ) ≤ l.length := by positivity
    have hSb : S + q ≤ 2 ^ 114 := by
      have h1 : (l.length : ℚ) * d * (1 + l.length / 2 ^ 23) ≤ 4095 * 2 ^ 100 * 2 := by
        apply mul_le_mul (mul_le_mul hlq hd' (by linarith [show (0:ℚ) < 1 / 2 ^ 100 by norm_num]) (by norm_num)) _
          (by positivity) (by positivity)
        norm_num; linarith
      norm_num at h1 hd' ⊢; linarith
    have hp : pow2 114 = 2 ^ 114 := by have := pow2_nat 114; exact_mod_cast this
    obtain ⟨hr, er, _⟩ := rnd_finite_of_abs_le (q := S + q) (b := pow2 114) (by decide +kernel)
      (by rw [abs_of_nonneg (by linarith), hp]; exact hSb)
    refine ⟨_, hr, by rw [hsum, er], rndQ_nonneg (by linarith), ?_⟩
    rw [List.length_append, List.length_singleton]
    exact hstep

theorem step_down {S d : ℚ} {k : ℕ} (hk : k ≤ 4096) (hd : 1 / 2 ^ 100 ≤ d)
    (h : k * d * (1 - k / 2 ^ 23) ≤ S) : ((k + 1 : ℕ) : ℚ) * d * (1 - ((k + 1 : ℕ) : ℚ) / 2 ^ 23) ≤ rndQ (S + d) := by
  have hkq : (k : ℚ) ≤ 4096 := by exact_mod_cast hk
  have hk0 : (0 : ℚ) ≤ k := by positivity
  have hd0 : 0 < d := lt_of_lt_of_le (by norm_num) hd
  have hS0 : 0 ≤ S := by
    refine _root_.le_trans ?_ h
    apply _root_.mul_nonneg (by positivity); norm_num; linarith
  have h1 := rndQ_down (q := S + d) (by linarith)
  refine _root_.le_trans ?_ h1
  have he : (eta : ℚ) ≤ d * (1 / 2 ^ 40) := by
    unfold eta
    have : (1 : ℚ) / 2 ^ 100 * (1 / 2 ^ 40) ≤ d * (1 / 2 ^ 40) := by
      apply _root_.mul_le_mul_of_nonneg_right hd; norm_num
    norm_num at this ⊢; linarith
  have h2 : (k * d * (1 - k / 2 ^ 23) + d) * (1 - eps) ≤ (S + d) * (1 - eps) := by
    apply _root_.mul_le_mul_of_nonneg_right (by linarith); unfold eps; norm_num
  have h3 : ((k + 1 : ℕ) : ℚ) * d * (1 - ((k + 1 : ℕ) : ℚ) / 2 ^ 23) ≤
      ((k : ℚ) * d * (1 - k / 2 ^ 23) + d) * (1 - eps) - d * (1 / 2 ^ 40) := by
    have h4 : ((k + 1 : ℕ) : ℚ) * (1 - ((k + 1 : ℕ) : ℚ) / 2 ^ 23) ≤
        ((k : ℚ) * (1 - k / 2 ^ 23) + 1) * (1 - eps) - (1 / 2 ^ 40) := by
      push_cast; unfold eps; norm_num
      nlinarith
    have := _root_.mul_le_mul_of_nonneg_right h4 hd0.le
    push_cast at this ⊢
    nlinarith [this]
  linarith

theorem sum_down {d : ℚ} {hg} (hd : 1 / 2 ^ 100 ≤ d) (hd' : d ≤ 2 ^ 100) : ∀ n ≤ 4096, ∀ S hS,
    F32.sum (List.replicate n (fin d hg)) = fin S hS → n * d * (1 - n / 2 ^ 23) ≤ S := by
  intro n
  induction n with
  | zero =>
    intro _ S hS h
    rw [List.replicate_zero, sum_nil0] at h
    injection h with h; subst h; simp
  | succ n ih =>
    intro hn S hS h
    have hd0 : 0 < d := lt_of_lt_of_le (by norm_num) hd
    obtain ⟨S', hS', e, _, _⟩ := sum_up hd hd' (List.replicate n (fin d hg)) (by simp; omega) (by
      intro x hx; exact ⟨d, hg, List.eq_of_mem_replicate hx, hd0.le, _root_.le_refl _⟩)
    have hi := ih (by omega) S' hS' e
    have hst := step_down (k := n) (by omega) hd hi
    have : F32.sum (List.replicate (n + 1) (fin d hg)) = rnd (S' + d) := by
      rw [List.replicate_succ']
      unfold F32.sum at e ⊢
      rw [List.foldl_append, e]; simp only [List.foldl_cons, List.foldl_nil]; rw [add_fin]
    rw [this] at h
    by_cases hr : |rndQ (S' + d)| < pow2 128
    · rw [rnd_of_lt hr] at h; injection h with h; subst h; exact hst
    · obtain ⟨sg, hi⟩ : ∃ sg, rnd (S' + d) = inf sg := by
        unfold rnd
        by_cases h1 : pow2 128 ≤ rndQ (S' + d)
        · exact ⟨_, dif_pos h1⟩
        · rw [dif_neg h1]
          by_cases h2 : rndQ (S' + d) ≤ -pow2 128
          · exact ⟨_, dif_pos h2⟩
          · exact absurd (abs_lt.2 ⟨not_le.1 h2, not_le.1 h1⟩) hr
      rw [hi] at h; cases h

/-- the rational core of the tolerance bound -/
theorem mean_close {d S n m : ℚ} (hd : 1 / 2 ^ 20 ≤ d) (n1 : 1 ≤ n) (n2 : n ≤ 4096)
    (h1 : n * d * (1 - n / 2 ^ 23) ≤ S) (h2 : S ≤ n * d * (1 + n / 2 ^ 23)) (hm : |m - S / n| ≤ |S / n| * eps + eta) :
    |d - m| ≤ d * (1001 / 2048000) := by
  have hd0 : 0 < d := lt_of_lt_of_le (by norm_num) hd
  have hn0 : 0 < n := by linarith
  have e1 : d * (1 - 1 / 2048) ≤ S / n := by
    rw [le_div_iff₀ hn0]
    refine _root_.le_trans ?_ h1
    have : d * (1 - 1 / 2048) * n = n * d * (1 - 1 / 2048) := by ring
    rw [this]
    apply _root_.mul_le_mul_of_nonneg_left _ (by positivity)
    norm_num; linarith
  have e2 : S / n ≤ d * (1 + 1 / 2048) := by
    rw [div_le_iff₀ hn0]
    refine _root_.le_trans h2 ?_
    have : d * (1 + 1 / 2048) * n = n * d * (1 + 1 / 2048) := by ring
    rw [this]
    apply _root_.mul_le_mul_of_nonneg_left _ (by positivity)
    norm_num; linarith
  generalize S / n = q at *
  have q0 : 0 ≤ q := _root_.le_trans (by norm_num; linarith) e1
  rw [abs_of_nonneg q0] at hm
  unfold eps eta at hm
  norm_num at hm hd
  rw [_root_.abs_le] at hm ⊢
  constructor <;> linarith [hm.1, hm.2]

/-- **C30** (perfect regularity, up to rounding): for up to 4096 equal intervals of any length between a microsecond and
twelve days the score is at least 0.999.  (`C30_violated_equal` shows it need not be exactly 1.) -/
theorem C30_equal_partial (beats : List BeatPos) (bpm : F32) (d : F32) (hb : ¬ bpm ≤ 0) (h2 : 2 ≤ beats.length)
    (hn : beats.length ≤ 4097) (hd1 : 0.000001 ≤ d) (hd2 : d ≤ 1000000)
    (heq : ∀ i, (h : i + 1 < beats.length) → beats[i + 1].time - beats[i].time = d) :
    ∃ s, stability beats bpm = .ok s ∧ 0.999 ≤ s ∧ s ≤ 1 := by
  obtain ⟨hA, eA⟩ : ∃ h, (0.000001 : F32) = fin (0.000001 : F32).val h := ⟨by decide +kernel, by decide +kernel⟩
  obtain ⟨hB, eB⟩ : ∃ h, (1000000 : F32) = fin 1000000 h := ⟨by decide +kernel, by decide +kernel⟩
  have hd0' : 0 < d := F32.lt_of_lt_of_le (by decide +kernel) hd1
  have hgap := gaps_equal (times := beats.map BeatPos.time) (d := d) hd0' (by
    intro i h; simp only [List.length_map] at h; simpa using heq i h)
  rw [List.length_map] at hgap
  rw [eA] at hd1; rw [eB] at hd2
  obtain ⟨q, hq, rfl, q1, q2⟩ := between_cases hd1 hd2
  have hAv : (1 : ℚ) / 2 ^ 20 ≤ (0.000001 : F32).val := by decide +kernel
  have q1 := _root_.le_trans hAv q1
  have q0 : 0 < q := lt_of_lt_of_le (by norm_num) q1
  obtain ⟨n, hnn⟩ : ∃ n, n = beats.length - 1 := ⟨_, rfl⟩
  rw [← hnn] at hgap
  have hn1 : 1 ≤ n := by omega
  have hn2 : n ≤ 4096 := by omega
  have hnq1 : (1 : ℚ) ≤ n := by exact_mod_cast hn1
  have hnq2 : (n : ℚ) ≤ 4096 := by exact_mod_cast hn2
  have hn0 : (n : ℚ) ≠ 0 := by linarith
  have q100 : 1 / 2 ^ 100 ≤ q := _root_.le_trans (by norm_num) q1
  have q100' : q ≤ 2 ^ 100 := _root_.le_trans q2 (by norm_num)
  obtain ⟨S, hS, eS, S0, S1⟩ := sum_up q100 q100' (List.replicate n (fin q hq)) (by simpa using hn2)
    (fun x hx => ⟨q, hq, List.eq_of_mem_replicate hx, q0.le, _root_.le_refl _⟩)
  rw [List.length_replicate] at S1
  have S2 := sum_down q100 q100' n hn2 S hS eS
  have hSn : S / n ≤ 2 ^ 22 := by
    rw [div_le_iff₀ (by linarith)]
    refine _root_.le_trans S1 ?_
    have : (n : ℚ) * q * (1 + n / 2 ^ 23) ≤ n * 1000000 * 2 := by
      apply mul_le_mul (_root_.mul_le_mul_of_nonneg_left q2 (by linarith)) _ (by positivity) (by positivity)
      norm_num; linarith
    norm_num at this ⊢; linarith
  have hp22 : pow2 22 = 2 ^ 22 := by have := pow2_nat 22; exact_mod_cast this
  obtain ⟨hm, em, bm⟩ := rnd_finite_of_abs_le (q := S / n) (b := pow2 22) (by decide +kernel)
    (by rw [abs_of_nonneg (by positivity), hp22]; exact hSn)
  have hclose := mean_close q1 hnq1 hnq2 S2 S1 (rndQ_err (S / n))
  have hmean : mean (gaps (beats.map BeatPos.time)) = fin (rndQ (S / n)) hm := by
    rw [hgap]; unfold mean
    rw [eS, List.length_replicate, ofNat_exact (by omega), div_fin hn0, em]
  generalize rndQ (S / n) = m at *
  have m1 : q * (1 - 1001 / 2048000) ≤ m := by have := (_root_.abs_le.1 hclose).2; linarith
  have m0 : 0 < m := lt_of_lt_of_le (by norm_num; exact q0) m1
  have hne : gaps (beats.map BeatPos.time) ≠ [] := by rw [hgap]; simp; omega
  have hmE : ¬ mean (gaps (beats.map BeatPos.time)) ≤ EPS := by
    rw [hmean]
    obtain ⟨hE, eE⟩ : ∃ h, EPS = fin EPS.val h := ⟨by decide +kernel, by decide +kernel⟩
    rw [eE, fin_le_fin]
    have : EPS.val ≤ 1 / 2 ^ 30 := by decide +kernel
    norm_num at this m1 q1 ⊢; linarith
  rw [stability_unfold h2 hb hne hmE, hmean]
  -- each squared deviation is at most C
  obtain ⟨C, hC⟩ : ∃ C : ℚ, C = q * q * (3 / 10000000) := ⟨_, rfl⟩
  have hq2 : 1 / 2 ^ 40 ≤ q * q := by
    have := mul_le_mul q1 q1 (by norm_num) q0.le
    norm_num at this ⊢; linarith
  have hq3 : q * q ≤ 10 ^ 12 := by
    have := mul_le_mul q2 q2 q0.le (by norm_num)
    norm_num at this ⊢; linarith
  have hC1 : 1 / 2 ^ 100 ≤ C := by rw [hC]; norm_num at hq2 ⊢; linarith
  have hC2 : C ≤ 2 ^ 100 := by rw [hC]; norm_num at hq3 ⊢; linarith
  obtain ⟨hD, eD, bD⟩ := rnd_finite_of_abs_le (q := q - m) (b := pow2 22) (by decide +kernel) (by
    rw [hp22]; refine _root_.le_trans hclose ?_; norm_num at q2 ⊢; linarith)
  have hDle : |rndQ (q - m)| ≤ q * (1002 / 2048000) := by
    have h1 := rndQ_up (q := |q - m|) (abs_nonneg _)
    rw [abs_rndQ]
    refine _root_.le_trans h1 ?_
    unfold eps eta
    norm_num at hclose q1 ⊢; linarith
  have hsqle : rndQ (q - m) * rndQ (q - m) ≤ q * q * (1002 / 2048000 * (1002 / 2048000)) := by
    rw [← abs_mul_abs_self]
    have := mul_le_mul hDle hDle (abs_nonneg _) (by positivity)
    linarith
  have hsq0 : 0 ≤ rndQ (q - m) * rndQ (q - m) := mul_self_nonneg _
  have hp50 : pow2 50 = 2 ^ 50 := by have := pow2_nat 50; exact_mod_cast this
  obtain ⟨hc, ec, _⟩ := rnd_finite_of_abs_le (q := rndQ (q - m) * rndQ (q - m)) (b := pow2 50) (by decide +kernel) (by
    rw [abs_of_nonneg hsq0, hp50]; norm_num at hsqle hq3 ⊢; linarith)
  have hcC : rndQ (rndQ (q - m) * rndQ (q - m)) ≤ C := by
    have h1 := rndQ_up hsq0
    unfold eps eta at h1
    rw [hC]
    norm_num at h1 hsqle hq2 ⊢; linarith
  have hc0 := rndQ_nonneg hsq0
  have hvar : ∃ v hv, variance (gaps (beats.map BeatPos.time)) (fin m hm) = fin v hv ∧ 0 ≤ v ∧ v ≤ q * q * (4 / 10000000) := by
    rw [hgap]; unfold variance
    simp only [List.map_replicate, List.length_replicate, sub_fin, eD, mul_fin, ec]
    obtain ⟨V, hV, eV, V0, V1⟩ := sum_up hC1 hC2 (List.replicate n (fin _ hc)) (by simpa using hn2)
      (fun x hx => ⟨_, hc, List.eq_of_mem_replicate hx, hc0, hcC⟩)
    rw [List.length_replicate] at V1
    rw [eV, ofNat_exact (by omega), div_fin hn0]
    have hVn : V / n ≤ C * (1 + 1 / 2048) := by
      rw [div_le_iff₀ (by linarith)]
      refine _root_.le_trans V1 ?_
      have : C * (1 + 1 / 2048) * n = n * C * (1 + 1 / 2048) := by ring
      rw [this]
      apply _root_.mul_le_mul_of_nonneg_left _ (by
        have : 0 < C := lt_of_lt_of_le (by norm_num) hC1
        positivity)
      norm_num; linarith
    have hVn0 : 0 ≤ V / n := by positivity
    obtain ⟨hv, ev, _⟩ := rnd_finite_of_abs_le (q := V / n) (b := pow2 50) (by decide +kernel) (by
      rw [abs_of_nonneg hVn0, hp50]
      refine _root_.le_trans hVn ?_
      rw [hC]; norm_num at hq3 ⊢; linarith)
    refine ⟨_, hv, ev, rndQ_nonneg hVn0, ?_⟩
    have h1 := rndQ_up hVn0
    unfold eps eta at h1
    rw [hC] at hVn
    norm_num at h1 hVn hq2 ⊢; linarith
  obtain ⟨v, hv, ev, v0, v1⟩ := hvar
  rw [ev]
  -- the square root is at most q / 1024
  have hx : OnGrid (q * pow2 (-10)) ∧ |q * pow2 (-10)| < pow2 128 := by
    constructor
    · obtain ⟨a, e, ha, he, hqe⟩ := (onGrid_iff q).1 hq.1
      rw [onGrid_iff]
      refine ⟨a, e - 10, ha, ?_, by rw [hqe, sub_eq_add_neg, pow2_add]; ring⟩
      by_contra hc'
      have hlt : pow2 e ≤ pow2 (-100) := pow2_le (by omega)
      have : pow2 (-100) = 1 / 2 ^ 100 := by rw [pow2_eq]; norm_num [zpow_neg]
      have ha' : (a : ℚ) ≤ 2 ^ 24 := by exact_mod_cast (abs_le.1 ha).2
      have hpe := pow2_pos e
      have : (a : ℚ) * pow2 e ≤ 2 ^ 24 * (1 / 2 ^ 100) := by
        rw [← this]
        exact mul_le_mul ha' hlt hpe.le (by norm_num)
      rw [← hqe] at this
      norm_num at this q1; linarith
    · have : pow2 (-10) ≤ 1 := by
        have := pow2_le (by norm_num : (-10 : ℤ) ≤ 0); simpa [pow2] using this
      have hp := pow2_pos (-10)
      have hp128 : pow2 128 = 2 ^ 128 := by have := pow2_nat 128; exact_mod_cast this
      rw [abs_of_nonneg (by positivity), hp128]
      have : q * pow2 (-10) ≤ 1000000 * 1 := mul_le_mul q2 this hp.le (by norm_num)
      norm_num at this ⊢; linarith
  have hp10 : pow2 (-10) = 1 / 1024 := by rw [pow2_eq]; norm_num [zpow_neg]
  have hsr := sqrt_le_fin (hv := hv) (hx := hx) v0 (by have := pow2_pos (-10); positivity) (by
    rw [hp10]; norm_num at v1 ⊢; nlinarith)
  have hsr0 := sqrt_nonneg (a := fin v hv) (by rw [zero_def]; exact fin_le_fin.2 v0)
  rw [zero_def] at hsr0
  obtain ⟨r, hr, er, r0, r1⟩ := between_cases hsr0 hsr
  rw [er, div_fin m0.ne', one_def]
  have hcv : rnd (r / m) ≤ 0.00099 := by
    obtain ⟨hl, el⟩ : ∃ h, (0.00099 : F32) = fin (0.00099 : F32).val h := ⟨by decide +kernel, by decide +kernel⟩
    have hlv : (989 : ℚ) / 1000000 ≤ (0.00099 : F32).val := by decide +kernel
    rw [el]
    apply rnd_le_fin
    rw [div_le_iff₀ m0]
    rw [hp10] at r1
    have : (989 : ℚ) / 1000000 * m ≤ (0.00099 : F32).val * m := _root_.mul_le_mul_of_nonneg_right hlv m0.le
    norm_num at m1 r1 this ⊢; linarith
  have hcv0 : 0 ≤ rnd (r / m) := rnd_nonneg (by positivity)
  obtain ⟨hl, el⟩ : ∃ h, (0.00099 : F32) = fin (0.00099 : F32).val h := ⟨by decide +kernel, by decide +kernel⟩
  rw [el] at hcv; rw [zero_def] at hcv0
  obtain ⟨z, hz, ez, z0, z1⟩ := between_cases hcv0 hcv
  rw [ez, add_fin]
  have g1 : (1 : F32) ≤ rnd (1 + z) := by rw [one_def]; exact fin_le_rnd (by linarith)
  have g2 : rnd (1 + z) ≤ 1.00099 := by
    refine F32.le_trans (rnd_mono (y := 1 + (0.00099 : F32).val) (by linarith)) (by decide +kernel)
  obtain ⟨hl', el'⟩ : ∃ h, (1.00099 : F32) = fin (1.00099 : F32).val h := ⟨by decide +kernel, by decide +kernel⟩
  rw [el'] at g2; rw [one_def] at g1
  obtain ⟨y, hy, ey, y1, y2⟩ := between_cases g1 g2
  rw [ey, div_fin (by linarith)]
  refine ⟨_, rfl, ?_, ?_⟩
  · refine F32.le_trans (b := 1 / 1.00099) (by decide +kernel) ?_
    rw [one_def, el', div_fin (by linarith)]
    apply rnd_mono
    exact one_div_le_one_div_of_le (by linarith) y2
  · exact rnd_le_fin (by rw [div_le_one₀ (by linarith)]; exact y1)

/-- non-vacuity: the 68 BPM beats of `C30_violated_equal` -/
example : ∀ i, (h : i + 1 < ([⟨-(60 / 68), 1⟩, ⟨0, 1⟩, ⟨60 / 68, 1⟩, ⟨2 * (60 / 68), 1⟩] : List BeatPos).length) →
    ([⟨-(60 / 68), 1⟩, ⟨0, 1⟩, ⟨60 / 68, 1⟩, ⟨2 * (60 / 68), 1⟩] : List BeatPos)[i + 1].time -
      ([⟨-(60 / 68), 1⟩, ⟨0, 1⟩, ⟨60 / 68, 1⟩, ⟨2 * (60 / 68), 1⟩] : List BeatPos)[i].time = 60 / 68 := by
  intro i h
  have h7 : i < 3 := Nat.lt_of_succ_lt_succ h
  interval_cases i <;> decide +kernel +revert

end Verif.Props
