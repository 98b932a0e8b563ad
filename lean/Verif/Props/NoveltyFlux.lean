import Verif.Props.NoveltyValue
import Mathlib.Analysis.Real.Sqrt

/-! Property theorems for claim C111, continued: the values of the spectral-flux and superflux novelty curves. -/

namespace Verif.Props

open Verif Verif.Novelty F32

/-! ### square roots -/

theorem sqrtQ_close {v : ℚ} (h0 : 0 ≤ v) : |((sqrtQ v : ℚ) : ℝ) - Real.sqrt v| ≤ 1 / 2 ^ 200 := by
  have hv0 : (0 : ℝ) ≤ v := by exact_mod_cast h0
  unfold sqrtQ
  dsimp only
  set N : ℤ := ⌊v * ((2 ^ 400 : ℕ) : ℚ)⌋ with hN
  have hN0 : 0 ≤ N := Int.floor_nonneg.2 (by positivity)
  obtain ⟨n, hn⟩ := Int.eq_ofNat_of_zero_le hN0
  have hnat : N.toNat = n := by rw [hn]; rfl
  rw [hnat]
  have f1 : (n : ℝ) ≤ v * 2 ^ 400 := by
    have := Int.floor_le (v * ((2 ^ 400 : ℕ) : ℚ))
    rw [← hN, hn] at this
    have := (Rat.cast_le (K := ℝ)).2 this
    push_cast at this
    exact this
  have f2 : (v : ℝ) * 2 ^ 400 < n + 1 := by
    have := Int.lt_floor_add_one (v * ((2 ^ 400 : ℕ) : ℚ))
    rw [← hN, hn] at this
    have := (Rat.cast_lt (K := ℝ)).2 this
    push_cast at this
    exact this
  set s := n.sqrt with hs
  have s1 : ((s : ℝ)) * s ≤ n := by exact_mod_cast Nat.sqrt_le n
  have s2 : (n : ℝ) + 1 ≤ ((s : ℝ) + 1) * (s + 1) := by exact_mod_cast Nat.lt_succ_sqrt n
  have hs0 : (0 : ℝ) ≤ s := by positivity
  set r := Real.sqrt v with hr
  have hr0 : 0 ≤ r := Real.sqrt_nonneg _
  have hrr : r * r = v := Real.mul_self_sqrt hv0
  have l1 : (s : ℝ) ≤ r * 2 ^ 200 := by
    refine (mul_self_le_mul_self_iff (by positivity) (by positivity)).2 ?_
    calc (s : ℝ) * s ≤ v * 2 ^ 400 := _root_.le_trans s1 f1
      _ = r * 2 ^ 200 * (r * 2 ^ 200) := by rw [← hrr, show (2 : ℝ) ^ 400 = 2 ^ 200 * 2 ^ 200 by rw [← pow_add]]; ring
  have l2 : r * 2 ^ 200 ≤ s + 1 := by
    refine (mul_self_le_mul_self_iff (by positivity) (by positivity)).2 ?_
    calc r * 2 ^ 200 * (r * 2 ^ 200) = v * 2 ^ 400 := by rw [← hrr, show (2 : ℝ) ^ 400 = 2 ^ 200 * 2 ^ 200 by rw [← pow_add]]; ring
      _ ≤ _ := _root_.le_trans f2.le s2
  have hq : ∃ t : ℝ, 0 ≤ t ∧ t ≤ 1 ∧ (((((2 * s + (if s * s = n then 0 else 1) : ℕ) : ℚ) / ((2 ^ 201 : ℕ) : ℚ)) : ℚ) : ℝ) = (2 * s + t) / 2 ^ 201 := by
    split_ifs
    · exact ⟨0, by norm_num, by norm_num, by push_cast; norm_num⟩
    · exact ⟨1, by norm_num, by norm_num, by push_cast; norm_num⟩
  obtain ⟨t, t0, t1, e⟩ := hq
  rw [e]
  have e2 : (2 * (s : ℝ) + t) / 2 ^ 201 - r = ((2 * s + t) - r * 2 ^ 200 * 2) / 2 ^ 201 := by
    rw [eq_div_iff (by positivity), sub_mul, div_mul_cancel₀ _ (by positivity)]
    ring
  rw [e2, abs_div, _root_.abs_of_pos (by positivity : (0 : ℝ) < 2 ^ 201), div_le_div_iff₀ (by positivity) (by positivity)]
  have : |2 * (s : ℝ) + t - r * 2 ^ 200 * 2| ≤ 2 := by
    rw [abs_le]; constructor <;> linarith
  calc _ ≤ (2 : ℝ) * 2 ^ 200 := _root_.mul_le_mul_of_nonneg_right this (by positivity)
    _ = _ := by norm_num

/-- `f32::sqrt` against the real square root -/
theorem sqrt_close {v : ℚ} {hv} (h0 : 0 ≤ v) (h1 : v ≤ 2 ^ 100) : ∃ w hw, F32.sqrt (fin v hv) = fin w hw ∧ 0 ≤ w ∧
    |(w : ℝ) - Real.sqrt v| ≤ Real.sqrt v / 2 ^ 23 + 1 / 2 ^ 140 := by
  have hc := sqrtQ_close h0
  have hv0 : (0 : ℝ) ≤ v := by exact_mod_cast h0
  have hr0 := Real.sqrt_nonneg (v : ℝ)
  have hr1 : Real.sqrt (v : ℝ) ≤ 2 ^ 50 := by
    rw [Real.sqrt_le_left (by positivity)]
    have := (Rat.cast_le (K := ℝ)).2 h1
    push_cast at this
    calc _ ≤ _ := this
      _ = _ := by norm_num
  have hq0 : 0 ≤ sqrtQ v := by
    unfold sqrtQ
    positivity
  have hc' := abs_le.1 hc
  have hq1 : sqrtQ v ≤ 2 ^ 60 := by
    refine (Rat.cast_le (K := ℝ)).1 ?_
    push_cast
    norm_num at hr1 hc' ⊢
    linarith [hc'.2]
  obtain ⟨hw, ew⟩ := fin_of_le (q := sqrtQ v) (by rwa [_root_.abs_of_nonneg hq0])
  refine ⟨_, hw, by rw [sqrt_fin h0, ew], rndQ_nonneg hq0, ?_⟩
  have he := err_pow (sqrtQ v)
  rw [_root_.abs_of_nonneg hq0] at he
  have he' := (Rat.cast_le (K := ℝ)).2 he
  push_cast at he'
  have he'' := abs_le.1 he'
  generalize Real.sqrt (v : ℝ) = r at *
  generalize ((sqrtQ v : ℚ) : ℝ) = q at *
  rw [abs_le]
  norm_num at hc' he'' ⊢
  constructor <;> linarith [hc'.1, hc'.2, he''.1, he''.2]

/-! ### norms -/

theorem norm_add_le' {n : ℕ} (a b : ℕ → ℝ) : Real.sqrt (∑ k ∈ Finset.range n, (a k + b k) ^ 2) ≤
    Real.sqrt (∑ k ∈ Finset.range n, a k ^ 2) + Real.sqrt (∑ k ∈ Finset.range n, b k ^ 2) := by
  have ha : 0 ≤ ∑ k ∈ Finset.range n, a k ^ 2 := Finset.sum_nonneg (fun _ _ => sq_nonneg _)
  have hb : 0 ≤ ∑ k ∈ Finset.range n, b k ^ 2 := Finset.sum_nonneg (fun _ _ => sq_nonneg _)
  rw [Real.sqrt_le_left (by positivity), add_sq, Real.sq_sqrt ha, Real.sq_sqrt hb]
  have := Real.sum_mul_le_sqrt_mul_sqrt (Finset.range n) a b
  have e : ∑ k ∈ Finset.range n, (a k + b k) ^ 2 = ∑ k ∈ Finset.range n, a k ^ 2 + 2 * ∑ k ∈ Finset.range n, a k * b k +
      ∑ k ∈ Finset.range n, b k ^ 2 := by
    rw [Finset.mul_sum, ← Finset.sum_add_distrib, ← Finset.sum_add_distrib]
    exact Finset.sum_congr rfl (fun k _ => by ring)
  rw [e]
  linarith

/-- numbers that differ by at most `ε` have norms that differ by at most `√n·ε` -/
theorem norm_shift {n : ℕ} {a b : ℕ → ℝ} {ε : ℝ} (hε : 0 ≤ ε) (ha : ∀ k < n, 0 ≤ a k) (h : ∀ k < n, a k ≤ b k + ε) :
    Real.sqrt (∑ k ∈ Finset.range n, a k ^ 2) ≤ Real.sqrt (∑ k ∈ Finset.range n, b k ^ 2) + Real.sqrt n * ε := by
  refine _root_.le_trans (Real.sqrt_le_sqrt (Finset.sum_le_sum (g := fun k => (b k + ε) ^ 2) fun k hk => ?_)) ?_
  · exact pow_le_pow_left₀ (ha k (Finset.mem_range.1 hk)) (h k (Finset.mem_range.1 hk)) 2
  · refine _root_.le_trans (norm_add_le' b (fun _ => ε)) ?_
    rw [Finset.sum_const, Finset.card_range, nsmul_eq_mul, Real.sqrt_mul (by positivity), Real.sqrt_sq hε]

theorem sum_range_real (n : ℕ) (g : ℕ → ℚ) : ((((List.range n).map g).sum : ℚ) : ℝ) = ∑ k ∈ Finset.range n, ((g k : ℚ) : ℝ) := by
  induction n with
  | zero => simp
  | succ n ih =>
    rw [List.range_succ, List.map_append, List.sum_append, Finset.sum_range_succ, ← ih]
    push_cast
    simp

/-- square roots of close numbers -/
theorem sqrt_near {S T ρ : ℝ} (hS : 0 ≤ S) (hT : 0 ≤ T) (hρ0 : 0 ≤ ρ) (hρ : ρ ≤ 1) (h : |S - T| ≤ T * ρ + 1 / 2 ^ 60) :
    |Real.sqrt S - Real.sqrt T| ≤ Real.sqrt T * ρ + 1 / 2 ^ 30 := by
  have h' := abs_le.1 h
  have t0 := Real.sqrt_nonneg T
  have s0 := Real.sqrt_nonneg S
  have tt := Real.mul_self_sqrt hT
  have ss := Real.mul_self_sqrt hS
  generalize Real.sqrt T = t at *
  generalize Real.sqrt S = s at *
  subst tt
  subst ss
  rw [abs_le]
  constructor
  · have : t * (1 - ρ) ≤ s + 1 / 2 ^ 30 := by
      refine (mul_self_le_mul_self_iff (_root_.mul_nonneg t0 (by linarith)) (by positivity)).2 ?_
      have e1 : t * (1 - ρ) * (t * (1 - ρ)) ≤ t * t * (1 - ρ) := by
        have : (1 - ρ) * (1 - ρ) ≤ 1 - ρ := by nlinarith
        nlinarith [_root_.mul_nonneg t0 t0]
      have e2 : s * s + 1 / 2 ^ 60 ≤ (s + 1 / 2 ^ 30) * (s + 1 / 2 ^ 30) := by
        norm_num; nlinarith
      nlinarith [h'.1]
    nlinarith
  · have : s ≤ t * (1 + ρ) + 1 / 2 ^ 30 := by
      refine (mul_self_le_mul_self_iff s0 (by positivity)).2 ?_
      have e1 : t * t * (1 + ρ) ≤ t * (1 + ρ) * (t * (1 + ρ)) := by
        have : 1 + ρ ≤ (1 + ρ) * (1 + ρ) := by nlinarith
        nlinarith [_root_.mul_nonneg t0 t0]
      have hp : 0 ≤ t * (1 + ρ) := by positivity
      generalize t * (1 + ρ) = u at *
      norm_num at h' ⊢
      nlinarith [h'.2]
    nlinarith

/-- the Euclidean norm of numbers accurate to `ε`, computed in f32 -/
theorem norm_close {n : ℕ} (hn : n ≤ 2 ^ 20) (d : ℕ → F32) (D : ℕ → ℝ) {ε : ℝ} (hε : 0 ≤ ε)
    (hd : ∀ k < n, ∃ v hv, d k = fin v hv ∧ 0 ≤ v ∧ v ≤ 2 ^ 15 ∧ |(v : ℝ) - D k| ≤ ε) (hD : ∀ k < n, 0 ≤ D k) :
    ∃ w hw, F32.sqrt (F32.sum ((List.range n).map (fun k => d k * d k))) = fin w hw ∧ 0 ≤ w ∧
      |(w : ℝ) - Real.sqrt (∑ k ∈ Finset.range n, D k ^ 2)| ≤
        Real.sqrt (∑ k ∈ Finset.range n, D k ^ 2) * ((n + 2) / 2 ^ 22) + 2 * (Real.sqrt n * ε) + 1 / 2 ^ 29 := by
  have hnq : (n : ℚ) ≤ 1048576 := by exact_mod_cast hn
  have hnr : (n : ℝ) ≤ 1048576 := by exact_mod_cast hn
  have hB : ((List.range n).map (fun k => (d k).val * (d k).val)).sum ≤ 2 ^ 50 := by
    refine _root_.le_trans (sum_map_le _ _ (2 ^ 30) (fun k hk => ?_)) ?_
    · obtain ⟨v, hv, e, v0, v1, _⟩ := hd k (List.mem_range.1 hk)
      rw [e]
      calc v * v ≤ 2 ^ 15 * 2 ^ 15 := _root_.mul_le_mul v1 v1 v0 (by norm_num)
        _ = _ := by norm_num
    · rw [List.length_range]
      norm_num
      linarith
  obtain ⟨S, hS, e1, S0, h1⟩ := terms_close (List.range n) (fun k => d k * d k) (fun k => (d k).val * (d k).val) hB
    (by rw [List.length_range]; exact hn) (fun k _ => mul_self_nonneg _) (_root_.le_refl _) (fun k hk _ => by
      obtain ⟨v, hv, e, v0, v1, _⟩ := hd k (List.mem_range.1 hk)
      rw [e]
      have hvv : v * v ≤ 2 ^ 59 := by
        calc v * v ≤ 2 ^ 15 * 2 ^ 15 := _root_.mul_le_mul v1 v1 v0 (by norm_num)
          _ ≤ _ := by norm_num
      obtain ⟨w, hw, ew, w0, hw'⟩ := mul_close (ha := hv) (hb := hv) v0 v0 hvv
      rw [ew]
      refine ⟨rfl, w0, _root_.le_trans hw' ?_⟩
      have := mul_self_nonneg v
      show v * v / 2 ^ 24 + 1 / 2 ^ 150 ≤ v * v * (1 / 2 ^ 22) + 1 / 2 ^ 90
      norm_num
      linarith)
  rw [List.length_range] at h1
  set T := ((List.range n).map (fun k => (d k).val * (d k).val)).sum with hTdef
  have hT0 : 0 ≤ T := List.sum_nonneg (fun x hx => by
    obtain ⟨b, hb, rfl⟩ := List.mem_map.1 hx
    exact mul_self_nonneg _)
  have hTr : (T : ℝ) = ∑ k ∈ Finset.range n, (((d k).val : ℚ) : ℝ) ^ 2 := by
    rw [hTdef, sum_range_real]
    refine Finset.sum_congr rfl (fun k _ => ?_)
    push_cast
    ring
  have hT0r : (0 : ℝ) ≤ T := by exact_mod_cast hT0
  have hS0r : (0 : ℝ) ≤ S := by exact_mod_cast S0
  have h1r : |(S : ℝ) - T| ≤ T * ((1 + n) / 2 ^ 22) + 1 / 2 ^ 60 := by
    have := (Rat.cast_le (K := ℝ)).2 h1
    push_cast at this
    exact this
  have hρ : (1 + (n : ℝ)) / 2 ^ 22 ≤ 1 / 2 := by
    norm_num
    linarith
  have h2 := sqrt_near hS0r hT0r (by positivity) (by linarith) h1r
  -- the norm of the computed numbers
  have hval : ∀ k < n, 0 ≤ (((d k).val : ℚ) : ℝ) ∧ |(((d k).val : ℚ) : ℝ) - D k| ≤ ε := fun k hk => by
    obtain ⟨v, hv, e, v0, v1, h⟩ := hd k hk
    rw [e]
    exact ⟨by exact_mod_cast v0, h⟩
  have h3 : Real.sqrt T ≤ Real.sqrt (∑ k ∈ Finset.range n, D k ^ 2) + Real.sqrt n * ε := by
    rw [hTr]
    exact norm_shift hε (fun k hk => (hval k hk).1) (fun k hk => by linarith [(abs_le.1 (hval k hk).2).2])
  have h4 : Real.sqrt (∑ k ∈ Finset.range n, D k ^ 2) ≤ Real.sqrt T + Real.sqrt n * ε := by
    rw [hTr]
    exact norm_shift hε hD (fun k hk => by linarith [(abs_le.1 (hval k hk).2).1])
  have hS1 : S ≤ 2 ^ 100 := by
    have := (abs_le.1 h1).2
    have hρq : T * ((1 + (n : ℚ)) / 2 ^ 22) ≤ T * 1 := _root_.mul_le_mul_of_nonneg_left (by norm_num; linarith) hT0
    norm_num at this hB ⊢
    norm_num at hρq
    linarith
  obtain ⟨w, hw, e2, w0, h5⟩ := sqrt_close (hv := hS) S0 hS1
  refine ⟨w, hw, by rw [e1, e2], w0, ?_⟩
  have g0 : 0 ≤ Real.sqrt n * ε := _root_.mul_nonneg (Real.sqrt_nonneg _) hε
  have F0 := Real.sqrt_nonneg (∑ k ∈ Finset.range n, D k ^ 2)
  have t0 := Real.sqrt_nonneg (T : ℝ)
  generalize Real.sqrt n * ε = G at *
  generalize Real.sqrt (∑ k ∈ Finset.range n, D k ^ 2) = F at *
  generalize Real.sqrt (T : ℝ) = t at *
  generalize Real.sqrt (S : ℝ) = r at *
  have e3 : F * (((n : ℝ) + 2) / 2 ^ 22) = F * ((1 + n) / 2 ^ 22) + F / 2 ^ 22 := by ring
  rw [e3]
  have hn0 : (0 : ℝ) ≤ (1 + n) / 2 ^ 22 := by positivity
  generalize (1 + (n : ℝ)) / 2 ^ 22 = ρ at *
  have h2' := abs_le.1 h2
  have h5' := abs_le.1 h5
  have k1 : t * ρ ≤ (F + G) * ρ := _root_.mul_le_mul_of_nonneg_right h3 hn0
  have k2 : G * ρ ≤ G * (1 / 2) := _root_.mul_le_mul_of_nonneg_left hρ g0
  have k3 : t * ρ ≤ t * (1 / 2) := _root_.mul_le_mul_of_nonneg_left hρ t0
  rw [add_mul] at k1
  rw [abs_le]
  norm_num at h2' h5' ⊢
  constructor <;> linarith [h2'.1, h2'.2, h5'.1, h5'.2]

/-! ### curves of norms -/

/-- a curve of norms, each accurate as in `norm_close`, scaled to its peak -/
theorem pairs_value {st : List F32 → List F32 → F32} {frames : List (List F32)} {F : ℕ → ℝ} {M ε : ℝ} {n : ℕ}
    (hn : n ≤ 2 ^ 20) (hε : 0 ≤ ε)
    (hst : ∀ i, i + 1 < frames.length → ∃ w hw, st (frames.getD i []) (frames.getD (i + 1) []) = fin w hw ∧ 0 ≤ w ∧
      |(w : ℝ) - F i| ≤ F i * ((n + 2) / 2 ^ 22) + 2 * (Real.sqrt n * ε) + 1 / 2 ^ 29)
    (hM : ∃ j, j + 1 < frames.length ∧ F j = M) (hle : ∀ i, i + 1 < frames.length → F i ≤ M)
    (hM1 : 1 / 2 ^ 18 ≤ M) (hM2 : 4 * (Real.sqrt n * ε) ≤ M) :
    ∀ i, i + 1 < frames.length → ∃ w hw, (peakNorm (pairs st frames)).getD i 0 = fin w hw ∧ 0 ≤ w ∧ w ≤ 1 ∧
      |(w : ℝ) - F i / M| ≤ ((n : ℝ) + 3) / 2 ^ 21 + (4 * (Real.sqrt n * ε) + 1 / 2 ^ 28) / M := by
  have hlen : (pairs st frames).length = frames.length - 1 := by unfold pairs; rw [List.length_map, List.length_range]
  have hnr : (n : ℝ) ≤ 1048576 := by exact_mod_cast hn
  have hMpos : 0 < M := _root_.lt_of_lt_of_le (by norm_num) hM1
  have hρ0 : (0 : ℝ) ≤ (n + 2) / 2 ^ 22 := by positivity
  have hρ1 : ((n : ℝ) + 2) / 2 ^ 22 ≤ 3 / 10 := by norm_num; linarith
  have hG : 0 ≤ Real.sqrt n * ε := _root_.mul_nonneg (Real.sqrt_nonneg _) hε
  have key := peakNorm_close (r := pairs st frames) (R := F)
    (δ := M * (((n : ℝ) + 2) / 2 ^ 22) + 2 * (Real.sqrt n * ε) + 1 / 2 ^ 29) (M := M) (by positivity)
    (fun i hi => by
      rw [hlen] at hi
      obtain ⟨w, hw, e, w0, h⟩ := hst i (by omega)
      refine ⟨w, hw, ?_, w0, _root_.le_trans h ?_⟩
      · rw [← e]
        exact range_map_get _ _ hi
      · have := _root_.mul_le_mul_of_nonneg_right (hle i (by omega)) hρ0
        linarith)
    (by obtain ⟨j, hj, e⟩ := hM; exact ⟨j, by rw [hlen]; omega, e⟩)
    (fun i hi => hle i (by rw [hlen] at hi; omega))
    (by
      have := _root_.mul_le_mul_of_nonneg_left hρ1 hMpos.le
      generalize M * (((n : ℝ) + 2) / 2 ^ 22) = P at *
      norm_num at hM1 hM2 ⊢
      linarith)
  intro i hi
  obtain ⟨w, hw, e, w0, w1, h⟩ := key i (by rw [hlen]; omega)
  refine ⟨w, hw, e, w0, w1, _root_.le_trans h ?_⟩
  have e2 : 2 * (M * (((n : ℝ) + 2) / 2 ^ 22) + 2 * (Real.sqrt n * ε) + 1 / 2 ^ 29) / M =
      ((n : ℝ) + 2) / 2 ^ 21 + (4 * (Real.sqrt n * ε) + 1 / 2 ^ 28) / M := by
    field_simp
    ring
  rw [e2]
  norm_num
  linarith

/-! ### spectral flux -/

/-- the loudest bin of a frame -/
def exactPeak (fr : List F32) : ℚ := (fr.map F32.val).foldr Max.max 0

/-- a bin's share of the loudest bin of its frame; 0 in a silent frame -/
def exactShare (fr : List F32) (k : ℕ) : ℚ := if exactPeak fr = 0 then 0 else (fr.getD k 0).val / exactPeak fr

/-- the Euclidean norm of the rises of the shares of the `n` bins -/
noncomputable def exactFlux (n : ℕ) (prev cur : List F32) : ℝ :=
  Real.sqrt (∑ k ∈ Finset.range n, ((Max.max (exactShare cur k - exactShare prev k) 0 : ℚ) : ℝ) ^ 2)

theorem exactPeak_spec : ∀ (fr : List F32), 0 ≤ exactPeak fr ∧ (∀ x ∈ fr, x.val ≤ exactPeak fr) ∧
    (exactPeak fr = 0 ∨ ∃ x ∈ fr, x.val = exactPeak fr)
  | [] => ⟨_root_.le_refl _, by simp, Or.inl rfl⟩
  | y :: fr => by
    obtain ⟨i0, i1, i2⟩ := exactPeak_spec fr
    have e : exactPeak (y :: fr) = Max.max y.val (exactPeak fr) := rfl
    rw [e]
    refine ⟨_root_.le_trans i0 (le_max_right _ _), ?_, ?_⟩
    · intro x hx
      rcases List.mem_cons.1 hx with rfl | hx
      · exact le_max_left _ _
      · exact _root_.le_trans (i1 x hx) (le_max_right _ _)
    · rcases _root_.le_total y.val (exactPeak fr) with h | h
      · rw [max_eq_right h]
        rcases i2 with i2 | ⟨x, hx, i2⟩
        · exact Or.inl i2
        · exact Or.inr ⟨x, by simp [hx], i2⟩
      · rw [max_eq_left h]
        exact Or.inr ⟨y, by simp, rfl⟩

theorem foldMax_peak {fr : List F32} (hfr : ∀ x ∈ fr, x.isFinite = true ∧ 0 ≤ x.val) :
    ∃ h, foldMax 0 fr = fin (exactPeak fr) h := by
  obtain ⟨m0, mn, mle, mmem⟩ := foldMax_spec (l := fr) (a := 0) zero_ne_nan
  obtain ⟨p0, p1, p2⟩ := exactPeak_spec fr
  have hfin : ∃ m h, foldMax 0 fr = fin m h ∧ m ≤ exactPeak fr := by
    rcases mmem with e | e
    · exact ⟨0, grid_zero, by rw [e, zero_def], p0⟩
    · obtain ⟨v, hv, ev⟩ := isFinite_iff.1 (hfr _ e).1
      refine ⟨v, hv, ev, ?_⟩
      have := p1 _ e
      rwa [ev] at this
  obtain ⟨m, h, e, hm⟩ := hfin
  have hge : exactPeak fr ≤ m := by
    rcases p2 with p2 | ⟨x, hx, p2⟩
    · rw [p2]
      rw [e, zero_def, fin_le_fin] at m0
      exact m0
    · obtain ⟨v, hv, ev⟩ := isFinite_iff.1 (hfr _ hx).1
      have := mle x hx (by rw [ev]; simp)
      rw [e, ev, fin_le_fin] at this
      rw [← p2, ev]
      exact this
  have := _root_.le_antisymm hm hge
  subst this
  exact ⟨h, e⟩

theorem binShare_unit {fr : List F32} (hfr : ∀ x ∈ fr, x.isFinite = true ∧ 0 ≤ x.val) {k : ℕ} (hk : k < fr.length) :
    0 ≤ exactShare fr k ∧ exactShare fr k ≤ 1 := by
  obtain ⟨p0, p1, p2⟩ := exactPeak_spec fr
  have hmem : fr.getD k 0 ∈ fr := by
    rw [List.getD_eq_getElem?_getD, List.getElem?_eq_getElem hk]
    exact List.getElem_mem hk
  unfold exactShare
  split_ifs with h
  · exact ⟨_root_.le_refl _, by norm_num⟩
  · have hp : 0 < exactPeak fr := _root_.lt_of_le_of_ne p0 (Ne.symm h)
    exact ⟨div_nonneg (hfr _ hmem).2 p0, (div_le_one₀ hp).2 (p1 _ hmem)⟩

theorem normFrame_close {fr : List F32} (hfr : ∀ x ∈ fr, x.isFinite = true ∧ 0 ≤ x.val)
    (hp : exactPeak fr = 0 ∨ 1 / 10 ^ 9 ≤ exactPeak fr) {k : ℕ} (hk : k < fr.length) :
    ∃ v hv, Novelty.at' (Novelty.normFrame fr) k = fin v hv ∧ |v - exactShare fr k| ≤ 1 / 2 ^ 23 := by
  obtain ⟨h, e⟩ := foldMax_peak hfr
  have eE : EPS = fin (rndQ (1 / 10 ^ 10)) (by decide +kernel) := by decide +kernel
  unfold Novelty.normFrame exactShare
  dsimp only
  rw [e]
  rcases hp with hp | hp
  · have hc : ¬ EPS < fin (exactPeak fr) h := by
      rw [eE, fin_lt_fin, hp]
      decide +kernel
    rw [if_neg hc, if_pos hp, map_at hk]
    exact ⟨0, grid_zero, zero_def, by norm_num⟩
  · have hc : EPS < fin (exactPeak fr) h := by
      rw [eE, fin_lt_fin]
      refine _root_.lt_of_lt_of_le ?_ hp
      decide +kernel
    have hpos : 0 < exactPeak fr := _root_.lt_of_lt_of_le (by norm_num) hp
    rw [if_pos hc, if_neg hpos.ne', map_at hk]
    have hu := binShare_unit hfr hk
    unfold exactShare at hu
    rw [if_neg hpos.ne'] at hu
    have hmem : fr.getD k 0 ∈ fr := by
      rw [List.getD_eq_getElem?_getD, List.getElem?_eq_getElem hk]
      exact List.getElem_mem hk
    obtain ⟨x, hx, ex⟩ := isFinite_iff.1 (hfr _ hmem).1
    unfold Novelty.at'
    rw [ex] at hu ⊢
    rw [div_fin hpos.ne']
    simp only [F32.val] at hu ⊢
    generalize x / exactPeak fr = q at *
    obtain ⟨hw, ew⟩ := fin_of_le (q := q) (by rw [_root_.abs_of_nonneg hu.1]; exact _root_.le_trans hu.2 (by norm_num))
    rw [ew]
    refine ⟨_, hw, rfl, _root_.le_trans (err_pow q) ?_⟩
    rw [_root_.abs_of_nonneg hu.1]
    have := hu.2
    norm_num
    linarith

theorem zip_range {α} {p c : List F32} {n : ℕ} (hp : p.length = n) (hc : c.length = n) (f : F32 × F32 → α) :
    (p.zip c).map f = (List.range n).map (fun k => f (Novelty.at' p k, Novelty.at' c k)) := by
  apply List.ext_getElem
  · rw [List.length_map, List.length_zip, List.length_map, List.length_range, hp, hc, Nat.min_self]
  · intro i h1 h2
    rw [List.length_map, List.length_range] at h2
    rw [List.getElem_map, List.getElem_map, List.getElem_zip, List.getElem_range]
    unfold Novelty.at'
    rw [List.getD_eq_getElem?_getD, List.getElem?_eq_getElem (by omega), List.getD_eq_getElem?_getD,
      List.getElem?_eq_getElem (by omega)]
    rfl

theorem spectral_close {p c : List F32} {n : ℕ} (hn : n ≤ 2 ^ 20) (hp : p.length = n) (hc : c.length = n)
    (hpf : ∀ x ∈ p, x.isFinite = true ∧ 0 ≤ x.val) (hcf : ∀ x ∈ c, x.isFinite = true ∧ 0 ≤ x.val)
    (hpp : exactPeak p = 0 ∨ 1 / 10 ^ 9 ≤ exactPeak p) (hcp : exactPeak c = 0 ∨ 1 / 10 ^ 9 ≤ exactPeak c) :
    ∃ w hw, spectralStep (Novelty.normFrame p) (Novelty.normFrame c) = fin w hw ∧ 0 ≤ w ∧
      |(w : ℝ) - exactFlux n p c| ≤ exactFlux n p c * ((n + 2) / 2 ^ 22) + 2 * (Real.sqrt n * (1 / 2 ^ 20)) + 1 / 2 ^ 29 := by
  have hl : ∀ fr : List F32, (Novelty.normFrame fr).length = fr.length := fun fr => by
    unfold Novelty.normFrame; dsimp only; split_ifs <;> rw [List.length_map]
  unfold spectralStep exactFlux
  rw [zip_range (by rw [hl, hp]) (by rw [hl, hc])]
  refine norm_close hn _ (fun k => ((Max.max (exactShare c k - exactShare p k) 0 : ℚ) : ℝ)) (by norm_num) (fun k hk => ?_)
    (fun k _ => by exact_mod_cast le_max_right _ _)
  have u1 := binShare_unit hpf (k := k) (by omega)
  have u2 := binShare_unit hcf (k := k) (by omega)
  obtain ⟨v, hv, e, v0, h⟩ := rise_close (γ := 1 / 2 ^ 23) (K := 1) (by norm_num) (by norm_num) (by norm_num)
    (normFrame_close hpf hpp (k := k) (by omega)) (normFrame_close hcf hcp (k := k) (by omega)) u1.1 u1.2 u2.1 u2.2
  refine ⟨v, hv, e, v0, ?_, ?_⟩
  · have h3 : Max.max (exactShare c k - exactShare p k) 0 ≤ 1 := _root_.max_le (by linarith) (by norm_num)
    have := (abs_le.1 h).2
    norm_num at this ⊢
    linarith
  · have h4 : |v - Max.max (exactShare c k - exactShare p k) 0| ≤ 1 / 2 ^ 20 := _root_.le_trans h (by norm_num)
    have := (Rat.cast_le (K := ℝ)).2 h4
    rw [Rat.cast_abs, Rat.cast_sub] at this
    refine _root_.le_trans this ?_
    push_cast
    exact _root_.le_refl _

theorem peak_large {s M : ℝ} (h0 : 0 ≤ s) (h : (s + 1) / 2 ^ 18 ≤ M) : 1 / 2 ^ 18 ≤ M ∧ 4 * (s * (1 / 2 ^ 20)) ≤ M := by
  norm_num at h ⊢
  constructor <;> linarith

/-- **C111** (spectral flux): each value of the curve is the norm of the rises of the bins' shares of the loudest bin of their
frame, as a share of the largest such norm of the recording. -/
theorem C111_spectral (spec : List (List F32)) (M : ℝ) (hv : Valid spec) (h2 : 2 ≤ spec.length)
    (hn : (spec.headD []).length ≤ 2 ^ 20) (hx : ∀ fr ∈ spec, ∀ x ∈ fr, x.isFinite = true ∧ 0 ≤ x.val)
    (hp : ∀ fr ∈ spec, exactPeak fr = 0 ∨ 1 / 10 ^ 9 ≤ exactPeak fr)
    (hM : ∃ j, j + 1 < spec.length ∧ exactFlux (spec.headD []).length (spec.getD j []) (spec.getD (j + 1) []) = M)
    (hle : ∀ i, i + 1 < spec.length → exactFlux (spec.headD []).length (spec.getD i []) (spec.getD (i + 1) []) ≤ M)
    (hM1 : (Real.sqrt (spec.headD []).length + 1) / 2 ^ 18 ≤ M) :
    ∃ c, Novelty.spectralFlux spec = .ok c ∧ c.length = spec.length - 1 ∧ ∀ i, i + 1 < spec.length →
      ∃ w hw, c.getD i 0 = fin w hw ∧ 0 ≤ w ∧ w ≤ 1 ∧
        |(w : ℝ) - exactFlux (spec.headD []).length (spec.getD i []) (spec.getD (i + 1) []) / M| ≤
          (((spec.headD []).length : ℝ) + 3) / 2 ^ 21 + (Real.sqrt (spec.headD []).length + 1) / 2 ^ 18 / M := by
  have getmem : ∀ j, j < spec.length → (spec.getD j []) ∈ spec := by
    intro j hj
    rw [List.getD_eq_getElem?_getD, List.getElem?_eq_getElem hj]
    exact List.getElem_mem hj
  have hs0 := Real.sqrt_nonneg ((spec.headD []).length : ℝ)
  have hMpos : 0 < M := _root_.lt_of_lt_of_le (by positivity) hM1
  refine ⟨_, by unfold Novelty.spectralFlux; rw [if_neg (by omega), check_valid hv]; rfl, ?_, ?_⟩
  · have : (peakNorm (pairs spectralStep (spec.map Novelty.normFrame))).length = (pairs spectralStep (spec.map Novelty.normFrame)).length := by
      unfold peakNorm; dsimp only; split_ifs <;> simp
    rw [this]
    unfold pairs
    rw [List.length_map, List.length_range, List.length_map]
  · intro i hi
    have key := pairs_value (st := spectralStep) (frames := spec.map Novelty.normFrame)
      (F := fun i => exactFlux (spec.headD []).length (spec.getD i []) (spec.getD (i + 1) [])) (M := M) (ε := 1 / 2 ^ 20)
      (n := (spec.headD []).length) hn (by norm_num)
      (fun j hj => by
        rw [List.length_map] at hj
        rw [map_getD_list (by decide +kernel), map_getD_list (by decide +kernel)]
        have m1 := getmem j (by omega)
        have m2 := getmem (j + 1) hj
        exact spectral_close hn (hv.2 _ m1) (hv.2 _ m2) (hx _ m1) (hx _ m2) (hp _ m1) (hp _ m2))
      (by rw [List.length_map]; exact hM) (by rw [List.length_map]; exact hle)
      (peak_large hs0 hM1).1 (peak_large hs0 hM1).2 i (by rw [List.length_map]; exact hi)
    obtain ⟨w, hw, e, w0, w1, h⟩ := key
    refine ⟨w, hw, e, w0, w1, _root_.le_trans h ?_⟩
    have : (4 * (Real.sqrt ((spec.headD []).length : ℝ) * (1 / 2 ^ 20)) + 1 / 2 ^ 28) / M ≤
        (Real.sqrt (spec.headD []).length + 1) / 2 ^ 18 / M := by
      rw [div_le_div_iff_of_pos_right hMpos]
      generalize Real.sqrt ((spec.headD []).length : ℝ) = s at *
      norm_num
      linarith
    linarith

/-- non-vacuity: a second note enters (a flux of 1), then the first one stops (no flux) -/
example : Valid [[1, 0], [1, 1], [0, 1]] ∧
    (∀ fr ∈ ([[1, 0], [1, 1], [0, 1]] : List (List F32)), exactPeak fr = 1) ∧
    exactFlux 2 [1, 0] [1, 1] = 1 ∧ exactFlux 2 [1, 1] [0, 1] = 0 ∧ (Real.sqrt (2 : ℕ) + 1) / 2 ^ 18 ≤ (1 : ℝ) := by
  have e1 : Max.max (exactShare [1, 1] 0 - exactShare [1, 0] 0) 0 = 0 := by unfold exactShare; decide +kernel
  have e2 : Max.max (exactShare [1, 1] 1 - exactShare [1, 0] 1) 0 = 1 := by unfold exactShare; decide +kernel
  have e3 : Max.max (exactShare [0, 1] 0 - exactShare [1, 1] 0) 0 = 0 := by unfold exactShare; decide +kernel
  have e4 : Max.max (exactShare [0, 1] 1 - exactShare [1, 1] 1) 0 = 0 := by unfold exactShare; decide +kernel
  refine ⟨by unfold Valid; decide +kernel, by decide +kernel, ?_, ?_, ?_⟩
  · unfold exactFlux
    rw [Finset.sum_range_succ, Finset.sum_range_succ, Finset.sum_range_zero, e1, e2]
    simp
  · unfold exactFlux
    rw [Finset.sum_range_succ, Finset.sum_range_succ, Finset.sum_range_zero, e3, e4]
    simp
  · have : Real.sqrt (2 : ℕ) ≤ 2 := by
      rw [Real.sqrt_le_left (by norm_num)]; norm_num
    generalize Real.sqrt (2 : ℕ) = s at *
    norm_num
    linarith

/-! ### superflux -/

/-- the compressed magnitude of bin `k` of a frame -/
def exactLog (L : Libm) (fr : List F32) (k : ℕ) : ℚ := (L.ln (1 + fr.getD k 0)).val

/-- the largest value within `w` bins of bin `k`, of `n` bins -/
def exactNear (w n : ℕ) (P : ℕ → ℚ) (k : ℕ) : ℚ :=
  (((List.range n).filter (fun b => decide (k ≤ b + w ∧ b ≤ k + w))).map P).foldr Max.max 0

/-- the Euclidean norm of the rises above everything within `w` bins in the previous frame -/
noncomputable def exactSuper (L : Libm) (w n : ℕ) (prev cur : List F32) : ℝ :=
  Real.sqrt (∑ k ∈ Finset.range n, ((Max.max (exactLog L cur k - exactNear w n (exactLog L prev) k) 0 : ℚ) : ℝ) ^ 2)

theorem foldr_max_spec : ∀ (l : List ℚ), 0 ≤ l.foldr Max.max 0 ∧ (∀ x ∈ l, x ≤ l.foldr Max.max 0) ∧
    (l.foldr Max.max 0 = 0 ∨ l.foldr Max.max 0 ∈ l)
  | [] => ⟨_root_.le_refl _, by simp, Or.inl rfl⟩
  | y :: l => by
    obtain ⟨i0, i1, i2⟩ := foldr_max_spec l
    rw [List.foldr_cons]
    refine ⟨_root_.le_trans i0 (le_max_right _ _), ?_, ?_⟩
    · intro x hx
      rcases List.mem_cons.1 hx with rfl | hx
      · exact le_max_left _ _
      · exact _root_.le_trans (i1 x hx) (le_max_right _ _)
    · rcases _root_.le_total y (l.foldr Max.max 0) with h | h
      · rw [max_eq_right h]
        exact i2.imp id (fun i => by simp [i])
      · rw [max_eq_left h]
        exact Or.inr (by simp)

/-- `prevMax` is the largest nearby value -/
theorem prevMax_near {w n k : ℕ} {prev : List F32} {P : ℕ → ℚ} (hl : prev.length = n)
    (hP : ∀ b < n, ∃ h, Novelty.at' prev b = fin (P b) h ∧ 0 ≤ P b) (hk : k < n) :
    ∃ h, prevMax w 0 n k prev = fin (exactNear w n P k) h := by
  obtain ⟨m0, mn, mle, mmem⟩ := foldMax_spec (l := band (Nat.max (k - w) 0) (Nat.min (k + w + 1) n) prev) (a := 0) zero_ne_nan
  obtain ⟨p0, p1, p2⟩ := foldr_max_spec (((List.range n).filter (fun b => decide (k ≤ b + w ∧ b ≤ k + w))).map P)
  change 0 ≤ exactNear w n P k at p0
  change ∀ x ∈ _, x ≤ exactNear w n P k at p1
  change exactNear w n P k = 0 ∨ exactNear w n P k ∈ _ at p2
  have hfin : ∃ m h, prevMax w 0 n k prev = fin m h ∧ m ≤ exactNear w n P k := by
    unfold prevMax
    rcases mmem with e | e
    · exact ⟨0, grid_zero, by rw [e, zero_def], p0⟩
    · obtain ⟨i, hi, ei⟩ := List.mem_iff_getElem.1 e
      unfold band at hi ei
      rw [List.length_drop, List.length_take] at hi
      rw [List.getElem_drop, List.getElem_take] at ei
      have hlo : Nat.max (k - w) 0 = k - w := Nat.max_eq_left (Nat.zero_le _)
      have hhi : Nat.min (k + w + 1) n ≤ k + w + 1 := Nat.min_le_left _ _
      have hhi2 : Nat.min (k + w + 1) n ≤ n := Nat.min_le_right _ _
      set b := Nat.max (k - w) 0 + i with hb
      have hbn : b < n := by omega
      obtain ⟨h, e2, _⟩ := hP b hbn
      refine ⟨P b, h, ?_, ?_⟩
      · rw [← e2]
        unfold Novelty.at'
        rw [List.getD_eq_getElem?_getD, List.getElem?_eq_getElem (by omega)]
        exact ei.symm
      · refine p1 _ (List.mem_map_of_mem (List.mem_filter.2 ⟨List.mem_range.2 hbn, ?_⟩))
        rw [decide_eq_true_iff]
        omega
  obtain ⟨m, h, e, hm⟩ := hfin
  have hge : exactNear w n P k ≤ m := by
    rcases p2 with p2 | p2
    · rw [p2]
      change 0 ≤ prevMax w 0 n k prev at m0
      rw [e, zero_def, fin_le_fin] at m0
      exact m0
    · obtain ⟨b, hb, e2⟩ := List.mem_map.1 p2
      rw [List.mem_filter, List.mem_range, decide_eq_true_iff] at hb
      obtain ⟨h', e3, _⟩ := hP b hb.1
      have hmem : Novelty.at' prev b ∈ band (Nat.max (k - w) 0) (Nat.min (k + w + 1) n) prev := by
        refine mem_band ?_ ?_ (by omega)
        · have : Nat.max (k - w) 0 = k - w := Nat.max_eq_left (Nat.zero_le _)
          omega
        · exact Nat.lt_min.2 ⟨by omega, hb.1⟩
      have := mle _ hmem (by rw [e3]; simp)
      change Novelty.at' prev b ≤ prevMax w 0 n k prev at this
      rw [e, e3, fin_le_fin] at this
      rw [← e2]
      exact this
  have := _root_.le_antisymm hm hge
  subst this
  exact ⟨h, e⟩

theorem log_value {L : Libm} {fr : List F32} {k : ℕ} (hk : k < fr.length) (h0 : 0 ≤ fr.getD k 0)
    (hL : (L.ln (1 + fr.getD k 0)).isFinite = true) : ∃ h, Novelty.at' (fr.map (logMag L)) k = fin (exactLog L fr k) h := by
  rw [map_at hk]
  unfold logMag exactLog Novelty.at'
  have : F32.max (fr.getD k 0) 0 = fr.getD k 0 :=
    F32.le_antisymm (F32.max_le (F32.le_refl (ne_nan_right h0)) h0) (F32.le_max_left (ne_nan_right h0))
  rw [this]
  obtain ⟨v, hv, e⟩ := isFinite_iff.1 hL
  rw [e]
  exact ⟨hv, rfl⟩

theorem super_close {L : Libm} {p c : List F32} {w n : ℕ} {K : ℚ} (hn : n ≤ 2 ^ 20) (hp : p.length = n) (hc : c.length = n)
    (hK1 : 1 ≤ K) (hK : K ≤ 2 ^ 10)
    (hpf : ∀ k < n, 0 ≤ p.getD k 0 ∧ (L.ln (1 + p.getD k 0)).isFinite = true ∧ 0 ≤ exactLog L p k ∧ exactLog L p k ≤ K)
    (hcf : ∀ k < n, 0 ≤ c.getD k 0 ∧ (L.ln (1 + c.getD k 0)).isFinite = true ∧ 0 ≤ exactLog L c k ∧ exactLog L c k ≤ K) :
    ∃ v hv, superStep w 0 n (p.map (logMag L)) (c.map (logMag L)) = fin v hv ∧ 0 ≤ v ∧
      |(v : ℝ) - exactSuper L w n p c| ≤ exactSuper L w n p c * ((n + 2) / 2 ^ 22) +
        2 * (Real.sqrt n * ((K : ℝ) / 2 ^ 21)) + 1 / 2 ^ 29 := by
  unfold superStep exactSuper
  have hr : List.range' 0 (n - 0) = List.range n := by rw [Nat.sub_zero, List.range_eq_range']
  rw [hr]
  have hK0 : (0 : ℝ) ≤ K := by exact_mod_cast (by linarith : (0 : ℚ) ≤ K)
  refine norm_close hn (fun b => F32.max (Novelty.at' (c.map (logMag L)) b - prevMax w 0 n b (p.map (logMag L))) 0)
    (fun k => ((Max.max (exactLog L c k - exactNear w n (exactLog L p) k) 0 : ℚ) : ℝ)) (by positivity) (fun k hk => ?_)
    (fun k _ => by exact_mod_cast le_max_right _ _)
  have hnear : 0 ≤ exactNear w n (exactLog L p) k ∧ exactNear w n (exactLog L p) k ≤ K := by
    obtain ⟨p0, p1, p2⟩ := foldr_max_spec (((List.range n).filter (fun b => decide (k ≤ b + w ∧ b ≤ k + w))).map (exactLog L p))
    refine ⟨p0, ?_⟩
    unfold exactNear
    rcases p2 with p2 | p2
    · rw [p2]; linarith
    · obtain ⟨b, hb, e⟩ := List.mem_map.1 p2
      rw [← e]
      rw [List.mem_filter, List.mem_range] at hb
      exact (hpf b hb.1).2.2.2
  obtain ⟨h1, e1⟩ := log_value (L := L) (fr := c) (k := k) (by omega) (hcf k hk).1 (hcf k hk).2.1
  obtain ⟨h2, e2⟩ := prevMax_near (w := w) (n := n) (k := k) (prev := p.map (logMag L)) (P := exactLog L p)
    (by rw [List.length_map, hp]) (fun b hb => by
      obtain ⟨h, e⟩ := log_value (L := L) (fr := p) (k := b) (by omega) (hpf b hb).1 (hpf b hb).2.1
      exact ⟨h, e, (hpf b hb).2.2.1⟩) hk
  obtain ⟨v, hv, e, v0, h⟩ := rise_close (γ := 0) (K := K) (_root_.le_refl _) (by linarith) (by norm_num at hK ⊢; linarith)
    ⟨_, h2, e2, by simp⟩ ⟨_, h1, e1, by simp⟩ hnear.1 hnear.2 (hcf k hk).2.2.1 (hcf k hk).2.2.2
  refine ⟨v, hv, e, v0, ?_, ?_⟩
  · have h3 : Max.max (exactLog L c k - exactNear w n (exactLog L p) k) 0 ≤ K :=
      _root_.max_le (by linarith [(hcf k hk).2.2.2]) (by linarith)
    have := (abs_le.1 h).2
    norm_num at this hK ⊢
    linarith
  · have h4 : |v - Max.max (exactLog L c k - exactNear w n (exactLog L p) k) 0| ≤ K / 2 ^ 21 :=
      _root_.le_trans h (by norm_num; linarith)
    have := (Rat.cast_le (K := ℝ)).2 h4
    rw [Rat.cast_abs, Rat.cast_sub] at this
    refine _root_.le_trans this ?_
    push_cast
    exact _root_.le_refl _

/-- **C111** (superflux): each value of the curve is the norm of the rises of the compressed magnitudes `ln (1 + x)` above
everything within `max w 1` bins in the previous frame, as a share of the largest such norm of the recording. -/
theorem C111_superflux (L : Libm) (spec : List (List F32)) (w : ℕ) (K : ℚ) (M : ℝ) (hv : Valid spec) (h2 : 2 ≤ spec.length)
    (hn : (spec.headD []).length ≤ 2 ^ 20) (hK1 : 1 ≤ K) (hK : K ≤ 2 ^ 10)
    (hx : ∀ fr ∈ spec, ∀ x ∈ fr, 0 ≤ x ∧ (L.ln (1 + x)).isFinite = true ∧ 0 ≤ (L.ln (1 + x)).val ∧ (L.ln (1 + x)).val ≤ K)
    (hM : ∃ j, j + 1 < spec.length ∧
      exactSuper L (max w 1) (spec.headD []).length (spec.getD j []) (spec.getD (j + 1) []) = M)
    (hle : ∀ i, i + 1 < spec.length →
      exactSuper L (max w 1) (spec.headD []).length (spec.getD i []) (spec.getD (i + 1) []) ≤ M)
    (hM1 : (Real.sqrt (spec.headD []).length + 1) * K / 2 ^ 18 ≤ M) :
    ∃ c, superflux L spec w = .ok c ∧ c.length = spec.length - 1 ∧ ∀ i, i + 1 < spec.length →
      ∃ v hv, c.getD i 0 = fin v hv ∧ 0 ≤ v ∧ v ≤ 1 ∧
        |(v : ℝ) - exactSuper L (max w 1) (spec.headD []).length (spec.getD i []) (spec.getD (i + 1) []) / M| ≤
          (((spec.headD []).length : ℝ) + 3) / 2 ^ 21 + (Real.sqrt (spec.headD []).length + 1) * K / 2 ^ 18 / M := by
  have getmem : ∀ j, j < spec.length → (spec.getD j []) ∈ spec := by
    intro j hj
    rw [List.getD_eq_getElem?_getD, List.getElem?_eq_getElem hj]
    exact List.getElem_mem hj
  have hs0 := Real.sqrt_nonneg ((spec.headD []).length : ℝ)
  have hK1r : (1 : ℝ) ≤ K := by exact_mod_cast hK1
  have hMpos : 0 < M := _root_.lt_of_lt_of_le (by positivity) hM1
  have hmax : Nat.max w 1 = Max.max w 1 := rfl
  refine ⟨_, by unfold superflux; rw [if_neg (by omega), check_valid hv]; rfl, ?_, ?_⟩
  · rw [hmax]
    have : ∀ l : List F32, (peakNorm l).length = l.length := fun l => by
      unfold peakNorm; dsimp only; split_ifs <;> simp
    rw [this]
    unfold pairs
    rw [List.length_map, List.length_range, List.length_map]
  · intro i hi
    have hb : 1 / 2 ^ 18 ≤ M ∧ 4 * (Real.sqrt ((spec.headD []).length : ℝ) * ((K : ℝ) / 2 ^ 21)) ≤ M ∧
        4 * (Real.sqrt ((spec.headD []).length : ℝ) * ((K : ℝ) / 2 ^ 21)) + 1 / 2 ^ 28 ≤
          (Real.sqrt ((spec.headD []).length : ℝ) + 1) * K / 2 ^ 18 := by
      generalize Real.sqrt ((spec.headD []).length : ℝ) = s at *
      have : 0 ≤ s * K := by positivity
      have e1 : (s + 1) * (K : ℝ) / 2 ^ 18 = (s * K + K) / 2 ^ 18 := by ring
      have e2 : 4 * (s * ((K : ℝ) / 2 ^ 21)) = 4 * (s * K) / 2 ^ 21 := by ring
      rw [e1] at hM1 ⊢
      rw [e2]
      generalize s * (K : ℝ) = T at *
      norm_num at hM1 ⊢
      refine ⟨by linarith, by linarith, by linarith⟩
    have key := pairs_value (st := superStep (Max.max w 1) 0 (spec.headD []).length) (frames := spec.map (fun fr => fr.map (logMag L)))
      (F := fun i => exactSuper L (Max.max w 1) (spec.headD []).length (spec.getD i []) (spec.getD (i + 1) [])) (M := M)
      (ε := (K : ℝ) / 2 ^ 21) (n := (spec.headD []).length) hn (by positivity)
      (fun j hj => by
        rw [List.length_map] at hj
        rw [map_getD_list rfl, map_getD_list rfl]
        have m1 := getmem j (by omega)
        have m2 := getmem (j + 1) hj
        have hin : ∀ fr ∈ spec, ∀ k < (spec.headD []).length, 0 ≤ fr.getD k 0 ∧ (L.ln (1 + fr.getD k 0)).isFinite = true ∧
            0 ≤ exactLog L fr k ∧ exactLog L fr k ≤ K := fun fr hfr k hk => by
          have hl := hv.2 fr hfr
          have hmem : fr.getD k 0 ∈ fr := by
            rw [List.getD_eq_getElem?_getD, List.getElem?_eq_getElem (by omega)]
            exact List.getElem_mem _
          exact hx fr hfr _ hmem
        exact super_close hn (hv.2 _ m1) (hv.2 _ m2) hK1 hK (hin _ m1) (hin _ m2))
      (by rw [List.length_map]; exact hM) (by rw [List.length_map]; exact hle) hb.1 hb.2.1 i (by rw [List.length_map]; exact hi)
    obtain ⟨v, hv, e, v0, v1, h⟩ := key
    refine ⟨v, hv, e, v0, v1, _root_.le_trans h ?_⟩
    have : (4 * (Real.sqrt ((spec.headD []).length : ℝ) * ((K : ℝ) / 2 ^ 21)) + 1 / 2 ^ 28) / M ≤
        (Real.sqrt (spec.headD []).length + 1) * K / 2 ^ 18 / M := by
      rw [div_le_div_iff_of_pos_right hMpos]
      exact hb.2.2
    linarith

/-- non-vacuity: a note glides to the next bin and fades (no flux), then a new one enters -/
example : Valid [[1, 0], [0, 1], [3, 1]] ∧ superflux rampLibm [[1, 0], [0, 1], [3, 1]] 1 = .ok [0, 1] ∧
    exactSuper rampLibm 1 2 [1, 0] [0, 1] = 0 ∧
    exactSuper rampLibm 1 2 [0, 1] [3, 1] = (exactLog rampLibm [3, 1] 0 - exactLog rampLibm [0, 1] 1 : ℚ) := by
  have e1 : Max.max (exactLog rampLibm [0, 1] 0 - exactNear 1 2 (exactLog rampLibm [1, 0]) 0) 0 = 0 := by decide +kernel
  have e2 : Max.max (exactLog rampLibm [0, 1] 1 - exactNear 1 2 (exactLog rampLibm [1, 0]) 1) 0 = 0 := by decide +kernel
  have e3 : Max.max (exactLog rampLibm [3, 1] 0 - exactNear 1 2 (exactLog rampLibm [0, 1]) 0) 0 =
    exactLog rampLibm [3, 1] 0 - exactLog rampLibm [0, 1] 1 := by decide +kernel
  have e4 : Max.max (exactLog rampLibm [3, 1] 1 - exactNear 1 2 (exactLog rampLibm [0, 1]) 1) 0 = 0 := by decide +kernel
  have e5 : 0 ≤ exactLog rampLibm [3, 1] 0 - exactLog rampLibm [0, 1] 1 := by decide +kernel
  refine ⟨by unfold Valid; decide +kernel, by decide +kernel, ?_, ?_⟩
  · unfold exactSuper
    rw [Finset.sum_range_succ, Finset.sum_range_succ, Finset.sum_range_zero, e1, e2]
    simp
  · unfold exactSuper
    rw [Finset.sum_range_succ, Finset.sum_range_succ, Finset.sum_range_zero, e3, e4]
    rw [show (0 : ℝ) + ((exactLog rampLibm [3, 1] 0 - exactLog rampLibm [0, 1] 1 : ℚ) : ℝ) ^ 2 + ((0 : ℚ) : ℝ) ^ 2 =
      ((exactLog rampLibm [3, 1] 0 - exactLog rampLibm [0, 1] 1 : ℚ) : ℝ) ^ 2 by simp]
    exact Real.sqrt_sq (by exact_mod_cast e5)

end Verif.Props
