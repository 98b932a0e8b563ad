/-
Bounds for the correctly rounded square root.
-/
import Verif.F32.Bounds

namespace Verif.F32
open Verif

theorem sqrtQ_le_scaled {v : ℚ} {X : ℕ} (h : v * 2 ^ 400 ≤ (X : ℚ) * X) : sqrtQ v ≤ (X : ℚ) / 2 ^ 200 := by
  unfold sqrtQ; dsimp only
  have hn : ⌊v * ((2 ^ 400 : ℕ) : ℚ)⌋.toNat ≤ X * X := by
    have h1 : (⌊v * ((2 ^ 400 : ℕ) : ℚ)⌋ : ℚ) ≤ ((X * X : ℕ) : ℤ) := by
      refine _root_.le_trans (Int.floor_le _) ?_
      push_cast; exact h
    have h2 : ⌊v * ((2 ^ 400 : ℕ) : ℚ)⌋ ≤ ((X * X : ℕ) : ℤ) := by exact_mod_cast h1
    exact Int.toNat_le.2 h2
  generalize ⌊v * ((2 ^ 400 : ℕ) : ℚ)⌋.toNat = n at hn
  have hs : n.sqrt ≤ X := by
    have := Nat.sqrt_le_sqrt hn
    rwa [Nat.sqrt_eq] at this
  have hmain : 2 * n.sqrt + (if n.sqrt * n.sqrt = n then 0 else 1) ≤ 2 * X := by
    rcases Nat.lt_or_ge n.sqrt X with hlt | hge
    · split_ifs <;> omega
    · have he : n.sqrt = X := by omega
      have h1 := Nat.sqrt_le n
      rw [he] at h1 ⊢
      rw [if_pos (by omega), Nat.add_zero]
  have hq : ((2 * n.sqrt + (if n.sqrt * n.sqrt = n then 0 else 1) : ℕ) : ℚ) ≤ ((2 * X : ℕ) : ℚ) := by exact_mod_cast hmain
  have h201 : ((2 ^ 201 : ℕ) : ℚ) = 2 * 2 ^ 200 := by norm_num
  rw [h201, div_le_div_iff₀ (by positivity) (by positivity)]
  have hp : (0 : ℚ) < 2 ^ 200 := by positivity
  generalize (2 : ℚ) ^ 200 = c at *
  generalize ((2 * n.sqrt + (if n.sqrt * n.sqrt = n then 0 else 1) : ℕ) : ℚ) = A at *
  push_cast at hq
  nlinarith

theorem le_sqrtQ_scaled {v : ℚ} {X : ℕ} (h : (X : ℚ) * X ≤ v * 2 ^ 400) : (X : ℚ) / 2 ^ 200 ≤ sqrtQ v := by
  unfold sqrtQ; dsimp only
  have hn : X * X ≤ ⌊v * ((2 ^ 400 : ℕ) : ℚ)⌋.toNat := by
    have h2 : ((X * X : ℕ) : ℤ) ≤ ⌊v * ((2 ^ 400 : ℕ) : ℚ)⌋ := by
      apply Int.le_floor.2
      push_cast; exact h
    have h3 := Int.toNat_le_toNat h2
    rwa [Int.toNat_natCast] at h3
  generalize ⌊v * ((2 ^ 400 : ℕ) : ℚ)⌋.toNat = n at hn
  have hs : X ≤ n.sqrt := by
    have := Nat.sqrt_le_sqrt hn
    rwa [Nat.sqrt_eq] at this
  have hmain : 2 * X ≤ 2 * n.sqrt + (if n.sqrt * n.sqrt = n then 0 else 1) := by omega
  have hq : ((2 * X : ℕ) : ℚ) ≤ ((2 * n.sqrt + (if n.sqrt * n.sqrt = n then 0 else 1) : ℕ) : ℚ) := by exact_mod_cast hmain
  have h201 : ((2 ^ 201 : ℕ) : ℚ) = 2 * 2 ^ 200 := by norm_num
  rw [h201, div_le_div_iff₀ (by positivity) (by positivity)]
  have hp : (0 : ℚ) < 2 ^ 200 := by positivity
  generalize (2 : ℚ) ^ 200 = c at *
  generalize ((2 * n.sqrt + (if n.sqrt * n.sqrt = n then 0 else 1) : ℕ) : ℚ) = A at *
  push_cast at hq
  nlinarith

theorem grid_scaled {x : ℚ} (hx : OnGrid x) (h0 : 0 ≤ x) : ∃ X : ℕ, x = (X : ℚ) / 2 ^ 200 := by
  obtain ⟨k, hk⟩ := onGrid_dvd hx
  have hp : pow2 (-149) = 1 / 2 ^ 149 := by rw [pow2_eq]; norm_num [zpow_neg]
  have hk0 : 0 ≤ k := by
    by_contra hc
    have : (k : ℚ) < 0 := by exact_mod_cast not_le.1 hc
    have h2 := pow2_pos (-149)
    nlinarith
  refine ⟨k.toNat * 2 ^ 51, ?_⟩
  have hkn : ((k.toNat : ℕ) : ℚ) = k := by
    have : ((k.toNat : ℕ) : ℤ) = k := Int.toNat_of_nonneg hk0
    exact_mod_cast this
  rw [hk, hp]
  push_cast
  rw [hkn]
  norm_num
  ring

/-- a root is at most `x` when its argument is at most `x²` -/
theorem sqrtQ_le {v x : ℚ} (hx : OnGrid x) (h0 : 0 ≤ x) (h : v ≤ x * x) : sqrtQ v ≤ x := by
  obtain ⟨X, rfl⟩ := grid_scaled hx h0
  apply sqrtQ_le_scaled
  have e : (X : ℚ) / 2 ^ 200 * (X / 2 ^ 200) = X * X / 2 ^ 400 := by
    rw [div_mul_div_comm, ← pow_add]
  rw [e, le_div_iff₀ (by positivity)] at h
  exact h

theorem le_sqrtQ {v x : ℚ} (hx : OnGrid x) (h0 : 0 ≤ x) (h : x * x ≤ v) : x ≤ sqrtQ v := by
  obtain ⟨X, rfl⟩ := grid_scaled hx h0
  apply le_sqrtQ_scaled
  have e : (X : ℚ) / 2 ^ 200 * (X / 2 ^ 200) = X * X / 2 ^ 400 := by
    rw [div_mul_div_comm, ← pow_add]
  rw [e, div_le_iff₀ (by positivity)] at h
  exact h

theorem sqrt_fin {v : ℚ} {hv} (h0 : 0 ≤ v) : sqrt (fin v hv) = rnd (sqrtQ v) := by
  unfold sqrt; dsimp only; rw [if_neg (not_lt.2 h0)]

theorem sqrt_le_fin {v x : ℚ} {hv hx} (h0 : 0 ≤ v) (hx0 : 0 ≤ x) (h : v ≤ x * x) : sqrt (fin v hv) ≤ fin x hx := by
  rw [sqrt_fin h0]
  exact rnd_le_fin (sqrtQ_le hx.1 hx0 h)

theorem fin_le_sqrt {v x : ℚ} {hv hx} (h0 : 0 ≤ v) (hx0 : 0 ≤ x) (h : x * x ≤ v) : fin x hx ≤ sqrt (fin v hv) := by
  rw [sqrt_fin h0]
  exact fin_le_rnd (le_sqrtQ hx.1 hx0 h)

end Verif.F32
