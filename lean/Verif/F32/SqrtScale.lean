import Verif.F32.Scale
import Verif.F32.Sqrt

/-! The rounded square root of `4^k v` is `2^k` times the rounded square root of `v`. -/

namespace Verif.F32
open Verif

theorem sqrtQ_lt_scaled {v : ℚ} {X : ℕ} (h0 : 0 ≤ v) (h : v * 2 ^ 400 < (X : ℚ) * X) : sqrtQ v < (X : ℚ) / 2 ^ 200 := by
  unfold sqrtQ; dsimp only
  have hn : ⌊v * ((2 ^ 400 : ℕ) : ℚ)⌋.toNat < X * X := by
    have h1 : (⌊v * ((2 ^ 400 : ℕ) : ℚ)⌋ : ℚ) < ((X * X : ℕ) : ℤ) := by
      refine _root_.lt_of_le_of_lt (Int.floor_le _) ?_
      push_cast; exact h
    have h2 : ⌊v * ((2 ^ 400 : ℕ) : ℚ)⌋ < ((X * X : ℕ) : ℤ) := by exact_mod_cast h1
    have h3 : 0 ≤ ⌊v * ((2 ^ 400 : ℕ) : ℚ)⌋ := Int.floor_nonneg.2 (by positivity)
    omega
  generalize ⌊v * ((2 ^ 400 : ℕ) : ℚ)⌋.toNat = n at hn
  have hs : n.sqrt < X := Nat.sqrt_lt.2 hn
  have hmain : 2 * n.sqrt + (if n.sqrt * n.sqrt = n then 0 else 1) < 2 * X := by split_ifs <;> omega
  have hq : ((2 * n.sqrt + (if n.sqrt * n.sqrt = n then 0 else 1) : ℕ) : ℚ) < ((2 * X : ℕ) : ℚ) := by exact_mod_cast hmain
  have h201 : ((2 ^ 201 : ℕ) : ℚ) = 2 * 2 ^ 200 := by norm_num
  rw [h201, div_lt_div_iff₀ (by positivity) (by positivity)]
  have hp : (0 : ℚ) < 2 ^ 200 := by positivity
  generalize (2 : ℚ) ^ 200 = c at *
  generalize ((2 * n.sqrt + (if n.sqrt * n.sqrt = n then 0 else 1) : ℕ) : ℚ) = A at *
  push_cast at hq
  nlinarith

theorem lt_sqrtQ_scaled {v : ℚ} {X N : ℕ} (hN : v * 2 ^ 400 = N) (h : (X : ℚ) * X < v * 2 ^ 400) :
    (X : ℚ) / 2 ^ 200 < sqrtQ v := by
  unfold sqrtQ; dsimp only
  have e : v * ((2 ^ 400 : ℕ) : ℚ) = ((N : ℤ) : ℚ) := by push_cast; exact hN
  rw [e, Int.floor_intCast, Int.toNat_natCast]
  have hn : X * X < N := by rw [hN] at h; exact_mod_cast h
  have hs : X ≤ N.sqrt := by
    have := Nat.sqrt_le_sqrt hn.le
    rwa [Nat.sqrt_eq] at this
  have hmain : 2 * X < 2 * N.sqrt + (if N.sqrt * N.sqrt = N then 0 else 1) := by
    rcases Nat.lt_or_ge X N.sqrt with hlt | hge
    · omega
    · have he : N.sqrt = X := by omega
      rw [he, if_neg (by omega)]; omega
  have hq : ((2 * X : ℕ) : ℚ) < ((2 * N.sqrt + (if N.sqrt * N.sqrt = N then 0 else 1) : ℕ) : ℚ) := by exact_mod_cast hmain
  have h201 : ((2 ^ 201 : ℕ) : ℚ) = 2 * 2 ^ 200 := by norm_num
  rw [h201, div_lt_div_iff₀ (by positivity) (by positivity)]
  have hp : (0 : ℚ) < 2 ^ 200 := by positivity
  generalize (2 : ℚ) ^ 200 = c at *
  generalize ((2 * N.sqrt + (if N.sqrt * N.sqrt = N then 0 else 1) : ℕ) : ℚ) = A at *
  push_cast at hq
  nlinarith

/-- grid values are multiples of `2^-400` -/
theorem grid_units400 {v : ℚ} (hv : OnGrid v) (h0 : 0 ≤ v) : ∃ N : ℕ, v * 2 ^ 400 = N := by
  obtain ⟨X, hX⟩ := grid_scaled hv h0
  refine ⟨X * 2 ^ 200, ?_⟩
  rw [hX]
  push_cast
  rw [show (2 : ℚ) ^ 400 = 2 ^ 200 * 2 ^ 200 by rw [← pow_add]]
  field_simp
  norm_num

theorem sqrtQ_cmp {v : ℚ} (hv : OnGrid v) (h0 : 0 ≤ v) (k X : ℕ) :
    (sqrtQ v < (X : ℚ) / 2 ^ 200 ↔ sqrtQ (pow2 (2 * k) * v) < pow2 k * ((X : ℚ) / 2 ^ 200)) ∧
    ((X : ℚ) / 2 ^ 200 < sqrtQ v ↔ pow2 k * ((X : ℚ) / 2 ^ 200) < sqrtQ (pow2 (2 * k) * v)) := by
  obtain ⟨N, hN⟩ := grid_units400 hv h0
  have ek : pow2 (k : ℤ) = 2 ^ k := pow2_nat k
  have e2k : pow2 (2 * (k : ℤ)) = 2 ^ k * 2 ^ k := by
    rw [show (2 * (k : ℤ)) = ((k + k : ℕ) : ℤ) by push_cast; ring, pow2_nat, pow_add]
  have hN' : pow2 (2 * k) * v * 2 ^ 400 = ((2 ^ k * 2 ^ k * N : ℕ) : ℚ) := by
    rw [mul_assoc, hN, e2k]; push_cast; ring
  have h0' : 0 ≤ pow2 (2 * k) * v := _root_.mul_nonneg (pow2_pos _).le h0
  have eX : pow2 k * ((X : ℚ) / 2 ^ 200) = ((2 ^ k * X : ℕ) : ℚ) / 2 ^ 200 := by rw [ek]; push_cast; ring
  rw [eX]
  have hp : (0 : ℚ) < 2 ^ k * 2 ^ k := by positivity
  have esq : (((2 ^ k * X : ℕ) : ℚ) * ((2 ^ k * X : ℕ) : ℚ)) = 2 ^ k * 2 ^ k * ((X : ℚ) * X) := by push_cast; ring
  have ev : pow2 (2 * k) * v * 2 ^ 400 = 2 ^ k * 2 ^ k * (v * 2 ^ 400) := by rw [e2k]; ring
  constructor
  · constructor
    · intro h
      have : v * 2 ^ 400 < (X : ℚ) * X := by
        by_contra hc
        exact absurd (le_sqrtQ_scaled (not_lt.1 hc)) (not_le.2 h)
      apply sqrtQ_lt_scaled h0'
      rw [esq, ev]
      exact mul_lt_mul_of_pos_left this hp
    · intro h
      have : pow2 (2 * k) * v * 2 ^ 400 < ((2 ^ k * X : ℕ) : ℚ) * ((2 ^ k * X : ℕ) : ℚ) := by
        by_contra hc
        exact absurd (le_sqrtQ_scaled (not_lt.1 hc)) (not_le.2 h)
      rw [esq, ev] at this
      exact sqrtQ_lt_scaled h0 (lt_of_mul_lt_mul_left this hp.le)
  · constructor
    · intro h
      have : (X : ℚ) * X < v * 2 ^ 400 := by
        by_contra hc
        exact absurd (sqrtQ_le_scaled (not_lt.1 hc)) (not_le.2 h)
      apply lt_sqrtQ_scaled hN'
      rw [esq, ev]
      exact mul_lt_mul_of_pos_left this hp
    · intro h
      have : ((2 ^ k * X : ℕ) : ℚ) * ((2 ^ k * X : ℕ) : ℚ) < pow2 (2 * k) * v * 2 ^ 400 := by
        by_contra hc
        exact absurd (sqrtQ_le_scaled (not_lt.1 hc)) (not_le.2 h)
      rw [esq, ev] at this
      exact lt_sqrtQ_scaled hN (lt_of_mul_lt_mul_left this hp.le)

theorem roundEven_cmp {z z' : ℚ} (hz : 0 ≤ z)
    (h : ∀ j : ℕ, (z < (j : ℚ) / 2 ↔ z' < (j : ℚ) / 2) ∧ ((j : ℚ) / 2 < z ↔ (j : ℚ) / 2 < z')) : roundEven z = roundEven z' := by
  obtain ⟨f, hf⟩ := Int.eq_ofNat_of_zero_le (Int.floor_nonneg.2 hz)
  have h1 := Int.floor_le z
  have h2 := Int.lt_floor_add_one z
  rw [hf] at h1 h2
  push_cast at h1 h2
  have a0 := h (2 * f)
  have a1 := h (2 * f + 1)
  have a2 := h (2 * f + 2)
  push_cast at a0 a1 a2
  have e0 : (2 * (f : ℚ)) / 2 = f := by ring
  have e2 : (2 * (f : ℚ) + 2) / 2 = f + 1 := by ring
  rw [e0] at a0
  rw [e2] at a2
  have hf' : ⌊z'⌋ = (f : ℤ) := by
    rw [Int.floor_eq_iff]
    push_cast
    exact ⟨not_lt.1 (fun hc => absurd (a0.1.2 hc) (not_lt.2 h1)), a2.1.1 h2⟩
  unfold roundEven
  dsimp only
  rw [hf, hf']
  push_cast
  have c1 : z - f < 1 / 2 ↔ z' - f < 1 / 2 := by
    constructor
    · intro hh
      have := a1.1.1 (by linarith)
      linarith
    · intro hh
      have := a1.1.2 (by linarith)
      linarith
  have c2 : 1 / 2 < z - f ↔ 1 / 2 < z' - f := by
    constructor
    · intro hh
      have := a1.2.1 (by linarith)
      linarith
    · intro hh
      have := a1.2.2 (by linarith)
      linarith
  simp only [c1, c2]

theorem pow2_unit {e : ℤ} (he : -200 ≤ e) : ∃ X : ℕ, pow2 e = (X : ℚ) / 2 ^ 200 := by
  obtain ⟨n, hn⟩ := Int.eq_ofNat_of_zero_le (by omega : 0 ≤ e + 200)
  refine ⟨2 ^ n, ?_⟩
  have h1 : pow2 e * pow2 200 = pow2 n := by rw [← pow2_add]; congr 1
  rw [pow2_nat, show (200 : ℤ) = ((200 : ℕ) : ℤ) from rfl, pow2_nat] at h1
  rw [eq_div_iff (by positivity), h1]
  push_cast; rfl

theorem sqrtQ_scale {v : ℚ} (hv : OnGrid v) (h0 : 0 < v) (k : ℕ) :
    rndQ (sqrtQ (pow2 (2 * k) * v)) = pow2 k * rndQ (sqrtQ v) := by
  have hk := pow2_pos (k : ℤ)
  -- the root is at least 2^-75
  have hv149 : pow2 (-149) ≤ v := by
    obtain ⟨m, e, -, he, rfl⟩ := (onGrid_iff v).1 hv
    have hm : 0 < m := by
      by_contra hc
      have : (m : ℚ) ≤ 0 := by exact_mod_cast not_lt.1 hc
      exact absurd h0 (not_lt.2 (mul_nonpos_of_nonpos_of_nonneg this (pow2_pos _).le))
    have h1 : (1 : ℚ) ≤ m := by exact_mod_cast hm
    have h2 : pow2 (-149) ≤ pow2 e := by
      rcases eq_or_lt_of_le he with h | h
      · rw [h]
      · exact (pow2_lt h).le
    nlinarith [pow2_pos e]
  have hr : pow2 (-75) ≤ sqrtQ v := by
    refine le_sqrtQ (onGrid_pow2 (by norm_num)) (pow2_pos _).le (_root_.le_trans ?_ hv149)
    rw [← pow2_add]
    exact (pow2_lt (by norm_num)).le
  have hr0 : 0 < sqrtQ v := _root_.lt_of_lt_of_le (pow2_pos _) hr
  have cmp : ∀ {q : ℚ}, (∃ X : ℕ, q = (X : ℚ) / 2 ^ 200) → (sqrtQ v < q ↔ sqrtQ (pow2 (2 * k) * v) < pow2 k * q) ∧
      (q < sqrtQ v ↔ pow2 k * q < sqrtQ (pow2 (2 * k) * v)) := by
    rintro q ⟨X, rfl⟩
    exact sqrtQ_cmp hv h0.le k X
  generalize sqrtQ (pow2 (2 * k) * v) = r' at cmp
  generalize sqrtQ v = r at *
  have hL : -75 ≤ Int.log 2 |r| := le_log_of_le (by rw [abs_of_pos hr0]; exact hr)
  have l1 : pow2 (Int.log 2 |r|) ≤ r := by
    have := Int.zpow_log_le_self (b := 2) (by norm_num) (abs_pos.2 hr0.ne')
    rw [abs_of_pos hr0] at this ⊢
    rw [pow2_eq]; exact_mod_cast this
  have l2 : r < pow2 (Int.log 2 |r| + 1) := by
    have := Int.lt_zpow_succ_log_self (b := 2) (by norm_num) |r|
    rw [abs_of_pos hr0] at this ⊢
    rw [pow2_eq]; exact_mod_cast this
  have g1 : pow2 (k + Int.log 2 |r|) ≤ r' := by
    rw [pow2_add]
    exact not_lt.1 (fun hc => absurd ((cmp (pow2_unit (by omega))).1.2 hc) (not_lt.2 l1))
  have g2 : r' < pow2 (k + Int.log 2 |r| + 1) := by
    rw [add_assoc, pow2_add]
    exact (cmp (pow2_unit (by omega))).1.1 l2
  have hr0' : 0 < r' := _root_.lt_of_lt_of_le (pow2_pos _) g1
  have elog : Int.log 2 |r'| = k + Int.log 2 |r| := by
    apply _root_.le_antisymm
    · exact log_le_of_lt hr0'.ne' (by rw [abs_of_pos hr0']; exact g2)
    · exact le_log_of_le (by rw [abs_of_pos hr0']; exact g1)
  have eu : ulpExp r' = k + ulpExp r := by unfold ulpExp; rw [elog]; omega
  have hu : -149 ≤ ulpExp r := by unfold ulpExp; exact _root_.le_max_right _ _
  unfold rndQ
  rw [eu, pow2_add]
  have hre : roundEven (r / pow2 (ulpExp r)) = roundEven (r' / (pow2 k * pow2 (ulpExp r))) := by
    have hpu := pow2_pos (ulpExp r)
    refine roundEven_cmp (_root_.div_nonneg hr0.le hpu.le) fun j => ?_
    have hX : ∃ X : ℕ, (j : ℚ) / 2 * pow2 (ulpExp r) = (X : ℚ) / 2 ^ 200 := by
      obtain ⟨X, hX⟩ := pow2_unit (e := ulpExp r - 1) (by omega)
      refine ⟨j * X, ?_⟩
      have : pow2 (ulpExp r) = 2 * pow2 (ulpExp r - 1) := by
        rw [show (2 : ℚ) = pow2 1 by rw [pow2_eq]; norm_num, ← pow2_add]; congr 1; ring
      rw [this, hX]; push_cast; ring
    have c := cmp hX
    rw [div_lt_iff₀ hpu, lt_div_iff₀ hpu, div_lt_iff₀ (mul_pos hk hpu), lt_div_iff₀ (mul_pos hk hpu)]
    have e : (j : ℚ) / 2 * (pow2 k * pow2 (ulpExp r)) = pow2 k * ((j : ℚ) / 2 * pow2 (ulpExp r)) := by ring
    rw [e]
    exact c
  rw [hre]
  ring

end Verif.F32
