/-
Round-to-nearest-ties-to-even onto the binary32 grid, over exact rationals.

This is the numeric core of the `f32` model.  `f32` is a Rust primitive, so there
is no `/repo` line to cite: the reference is IEEE-754-2019 binary32 (24-bit
significand, minimum exponent -126, subnormal spacing 2^-149).
-/
import Mathlib.Data.Int.Log
import Mathlib.Data.Rat.Floor
import Mathlib.Tactic.Linarith
import Mathlib.Tactic.Positivity
import Mathlib.Tactic.FieldSimp
import Mathlib.Tactic.Ring
import Mathlib.Tactic.NormNum
import Mathlib.Tactic.GCongr
import Mathlib.Tactic.Push

namespace Verif

/-- `2^e` as a rational, written so that the kernel evaluates it quickly. -/
def pow2 : ℤ → ℚ
  | .ofNat n => ((2 ^ n : ℕ) : ℚ)
  | .negSucc n => 1 / ((2 ^ (n + 1) : ℕ) : ℚ)

theorem pow2_eq (e : ℤ) : pow2 e = (2 : ℚ) ^ e := by
  cases e with
  | ofNat n => simp [pow2]
  | negSucc n => simp [pow2, zpow_negSucc]

theorem pow2_pos (e : ℤ) : 0 < pow2 e := by rw [pow2_eq]; exact zpow_pos (by norm_num) e

theorem pow2_add (a b : ℤ) : pow2 (a + b) = pow2 a * pow2 b := by
  simp only [pow2_eq]; exact zpow_add₀ (by norm_num) a b

theorem pow2_le {a b : ℤ} (h : a ≤ b) : pow2 a ≤ pow2 b := by
  simp only [pow2_eq]; exact zpow_le_zpow_right₀ (by norm_num) h

theorem pow2_lt {a b : ℤ} (h : a < b) : pow2 a < pow2 b := by
  simp only [pow2_eq]; exact zpow_lt_zpow_right₀ (by norm_num) h

theorem pow2_le_iff {a b : ℤ} : pow2 a ≤ pow2 b ↔ a ≤ b := by
  constructor
  · intro h; by_contra hc; exact absurd h (not_le.2 (pow2_lt (not_le.1 hc)))
  · exact pow2_le

theorem pow2_nat (n : ℕ) : pow2 (n : ℤ) = 2 ^ n := by
  rw [pow2_eq]; simp

/-- Round a rational to the nearest integer, ties to even. -/
def roundEven (x : ℚ) : ℤ :=
  let f := ⌊x⌋
  let r := x - f
  if r < 1 / 2 then f
  else if 1 / 2 < r then f + 1
  else if f % 2 = 0 then f else f + 1

theorem roundEven_int (n : ℤ) : roundEven (n : ℚ) = n := by
  simp [roundEven]

theorem floor_le_roundEven (x : ℚ) : ⌊x⌋ ≤ roundEven x := by
  unfold roundEven; dsimp only; split_ifs <;> omega

theorem roundEven_le_floor_add_one (x : ℚ) : roundEven x ≤ ⌊x⌋ + 1 := by
  unfold roundEven; dsimp only; split_ifs <;> omega

theorem roundEven_mono {x y : ℚ} (h : x ≤ y) : roundEven x ≤ roundEven y := by
  have hf : ⌊x⌋ ≤ ⌊y⌋ := Int.floor_le_floor h
  rcases lt_or_eq_of_le hf with hlt | heq
  · have h1 := roundEven_le_floor_add_one x
    have h2 := floor_le_roundEven y
    omega
  · unfold roundEven; dsimp only
    rw [heq]
    split_ifs <;> first | omega | (exfalso; linarith)

theorem roundEven_neg (x : ℚ) : roundEven (-x) = -roundEven x := by
  have hfl : (⌊x⌋ : ℚ) ≤ x := Int.floor_le x
  have hfu : x < ⌊x⌋ + 1 := Int.lt_floor_add_one x
  by_cases hx : (⌊x⌋ : ℚ) = x
  · rw [← hx, ← Int.cast_neg, roundEven_int, roundEven_int]
  · have hlt : (⌊x⌋ : ℚ) < x := lt_of_le_of_ne hfl hx
    have hn : ⌊-x⌋ = -⌊x⌋ - 1 := by
      rw [Int.floor_eq_iff]; push_cast; constructor <;> linarith
    unfold roundEven; dsimp only
    rw [hn]; push_cast
    split_ifs <;> first | omega | (exfalso; linarith)

theorem abs_roundEven_sub_le (x : ℚ) : |(roundEven x : ℚ) - x| ≤ 1 / 2 := by
  have hfl : (⌊x⌋ : ℚ) ≤ x := Int.floor_le x
  have hfu : x < ⌊x⌋ + 1 := Int.lt_floor_add_one x
  unfold roundEven; dsimp only
  rw [abs_le]
  split_ifs <;> push_cast <;> constructor <;> linarith

/-- Exponent of the unit in the last place of the binary32 grid around `q`. -/
def ulpExp (q : ℚ) : ℤ := max (Int.log 2 |q| - 23) (-149)

/-- Nearest binary32 grid point with unbounded upper exponent. -/
def rndQ (q : ℚ) : ℚ := (roundEven (q / pow2 (ulpExp q)) : ℚ) * pow2 (ulpExp q)

@[simp] theorem ulpExp_neg (q : ℚ) : ulpExp (-q) = ulpExp q := by simp [ulpExp]

@[simp] theorem rndQ_neg (q : ℚ) : rndQ (-q) = -rndQ q := by
  unfold rndQ; rw [ulpExp_neg, neg_div, roundEven_neg]; push_cast; ring

@[simp] theorem rndQ_zero : rndQ 0 = 0 := by
  have := roundEven_int 0
  simp [rndQ] at *; simp [this]

theorem ulpExp_ge (q : ℚ) : -149 ≤ ulpExp q := le_max_right _ _

theorem log_le_of_lt {q : ℚ} {L : ℤ} (hq : q ≠ 0) (h : |q| < pow2 (L + 1)) : Int.log 2 |q| ≤ L := by
  have hpos : 0 < |q| := abs_pos.2 hq
  have h1 : ((2 : ℕ) : ℚ) ^ Int.log 2 |q| ≤ |q| := Int.zpow_log_le_self (by norm_num) hpos
  push_cast at h1
  rw [← pow2_eq] at h1
  by_contra hc
  have : pow2 (L + 1) ≤ pow2 (Int.log 2 |q|) := pow2_le (by omega)
  linarith

theorem le_log_of_le {q : ℚ} {L : ℤ} (h : pow2 L ≤ |q|) : L ≤ Int.log 2 |q| := by
  have h1 : |q| < ((2 : ℕ) : ℚ) ^ (Int.log 2 |q| + 1) := Int.lt_zpow_succ_log_self (by norm_num) |q|
  push_cast at h1
  rw [← pow2_eq] at h1
  have : pow2 L < pow2 (Int.log 2 |q| + 1) := lt_of_le_of_lt h h1
  by_contra hc
  have := pow2_le (a := Int.log 2 |q| + 1) (b := L) (by omega)
  linarith

theorem abs_lt_ulp (q : ℚ) : |q| < 2 ^ 24 * pow2 (ulpExp q) := by
  have h1 : |q| < ((2 : ℕ) : ℚ) ^ (Int.log 2 |q| + 1) := Int.lt_zpow_succ_log_self (by norm_num) |q|
  push_cast at h1
  rw [← pow2_eq] at h1
  have h2 : (2 : ℚ) ^ 24 * pow2 (ulpExp q) = pow2 (24 + ulpExp q) := by
    rw [pow2_add]; congr 1
  rw [h2]
  refine lt_of_lt_of_le h1 (pow2_le ?_)
  have : Int.log 2 |q| - 23 ≤ ulpExp q := le_max_left _ _
  omega

theorem roundEven_ulp_le (q : ℚ) : |roundEven (q / pow2 (ulpExp q))| ≤ 2 ^ 24 := by
  have h := abs_lt_ulp q
  have hp := pow2_pos (ulpExp q)
  have h2 : |q / pow2 (ulpExp q)| ≤ 2 ^ 24 := by
    rw [abs_div, abs_of_pos hp, div_le_iff₀ hp]; exact h.le
  rw [abs_le] at h2 ⊢
  constructor
  · have := roundEven_mono h2.1
    have e : roundEven (-2 ^ 24 : ℚ) = -2 ^ 24 := by
      have := roundEven_int (-2 ^ 24); push_cast at this; exact this
    rwa [e] at this
  · have := roundEven_mono h2.2
    have e : roundEven (2 ^ 24 : ℚ) = 2 ^ 24 := by
      have := roundEven_int (2 ^ 24); push_cast at this; exact this
    rwa [e] at this

/-- A value is on the unbounded binary32 grid. -/
def OnGrid (q : ℚ) : Prop := rndQ q = q

instance (q : ℚ) : Decidable (OnGrid q) := by unfold OnGrid; infer_instance

theorem onGrid_of_ulp {q : ℚ} {m : ℤ} (h : q = m * pow2 (ulpExp q)) : OnGrid q := by
  unfold OnGrid rndQ
  have hp := pow2_pos (ulpExp q)
  have : q / pow2 (ulpExp q) = m := by rw [div_eq_iff hp.ne']; exact h
  rw [this, roundEven_int]; exact h.symm

/-- Integers of at most 24 bits scaled by a power of two `≥ 2^-149` are on the grid. -/
theorem onGrid_of_scaled {m e : ℤ} (hm : |m| ≤ 2 ^ 24) (he : -149 ≤ e) :
    OnGrid ((m : ℚ) * pow2 e) := by
  have key : ∀ {m e : ℤ}, |m| < 2 ^ 24 → -149 ≤ e → OnGrid ((m : ℚ) * pow2 e) := by
    intro m e hm he
    by_cases hz : (m : ℚ) * pow2 e = 0
    · rw [hz]; exact rndQ_zero
    have hle : ulpExp ((m : ℚ) * pow2 e) ≤ e := by
      unfold ulpExp
      refine max_le ?_ he
      have : Int.log 2 |(m : ℚ) * pow2 e| ≤ e + 23 := by
        apply log_le_of_lt hz
        rw [abs_mul, abs_of_pos (pow2_pos e)]
        have h24 : pow2 (e + 23 + 1) = 2 ^ 24 * pow2 e := by
          rw [show e + 23 + 1 = 24 + e by ring, pow2_add]; congr 1
        rw [h24]
        have : |(m : ℚ)| < 2 ^ 24 := by exact_mod_cast hm
        exact mul_lt_mul_of_pos_right this (pow2_pos e)
      omega
    obtain ⟨k, hk⟩ := Int.eq_ofNat_of_zero_le (show 0 ≤ e - ulpExp ((m : ℚ) * pow2 e) by omega)
    apply onGrid_of_ulp (m := m * 2 ^ k)
    push_cast
    have : pow2 e = 2 ^ k * pow2 (ulpExp ((m : ℚ) * pow2 e)) := by
      rw [← pow2_nat, ← pow2_add]; congr 1; omega
    rw [mul_assoc, ← this]
  rcases lt_or_eq_of_le hm with h | h
  · exact key h he
  · have h1 : m = 2 ^ 24 ∨ m = -2 ^ 24 := by
      rcases abs_choice m with h' | h' <;> omega
    have h3 : ((2 ^ 24 : ℤ) : ℚ) * pow2 e = ((1 : ℤ) : ℚ) * pow2 (24 + e) := by
      rw [pow2_add, show pow2 24 = 2 ^ 24 from rfl]; push_cast; ring
    have h4 : OnGrid (((2 ^ 24 : ℤ) : ℚ) * pow2 e) := by
      rw [h3]; exact key (by norm_num) (by omega)
    rcases h1 with rfl | rfl
    · exact h4
    · unfold OnGrid at *; push_cast at *
      rw [neg_mul, rndQ_neg, h4]

theorem rndQ_scaled (q : ℚ) : ∃ m e : ℤ, |m| ≤ 2 ^ 24 ∧ -149 ≤ e ∧ rndQ q = m * pow2 e :=
  ⟨_, _, roundEven_ulp_le q, ulpExp_ge q, rfl⟩

theorem onGrid_rndQ (q : ℚ) : OnGrid (rndQ q) := by
  obtain ⟨m, e, hm, he, h⟩ := rndQ_scaled q
  rw [h]; exact onGrid_of_scaled hm he

theorem onGrid_iff (q : ℚ) : OnGrid q ↔ ∃ m e : ℤ, |m| ≤ 2 ^ 24 ∧ -149 ≤ e ∧ q = m * pow2 e := by
  constructor
  · intro h; obtain ⟨m, e, hm, he, h'⟩ := rndQ_scaled q
    exact ⟨m, e, hm, he, by rw [← h', h]⟩
  · rintro ⟨m, e, hm, he, rfl⟩; exact onGrid_of_scaled hm he

theorem onGrid_neg {q : ℚ} (h : OnGrid q) : OnGrid (-q) := by
  unfold OnGrid at *; rw [rndQ_neg, h]

theorem onGrid_abs {q : ℚ} (h : OnGrid q) : OnGrid |q| := by
  rcases abs_choice q with h' | h' <;> rw [h']
  · exact h
  · exact onGrid_neg h

theorem onGrid_pow2 {e : ℤ} (he : -149 ≤ e) : OnGrid (pow2 e) := by
  have := onGrid_of_scaled (m := 1) (e := e) (by norm_num) he
  simpa using this

theorem onGrid_nat {n : ℕ} (h : n ≤ 2 ^ 24) : OnGrid (n : ℚ) := by
  have := onGrid_of_scaled (m := n) (e := 0) (by rw [abs_of_nonneg (by omega)]; exact_mod_cast h) (by norm_num)
  simpa [pow2] using this

theorem abs_rndQ_sub_le (q : ℚ) : |rndQ q - q| ≤ pow2 (ulpExp q) / 2 := by
  have hp := pow2_pos (ulpExp q)
  have h := abs_roundEven_sub_le (q / pow2 (ulpExp q))
  have e : rndQ q - q = ((roundEven (q / pow2 (ulpExp q)) : ℚ) - q / pow2 (ulpExp q)) * pow2 (ulpExp q) := by
    unfold rndQ; field_simp
  rw [e, abs_mul, abs_of_pos hp]
  have := mul_le_mul_of_nonneg_right h hp.le
  linarith

theorem rndQ_nonneg {q : ℚ} (h : 0 ≤ q) : 0 ≤ rndQ q := by
  unfold rndQ
  have hp := pow2_pos (ulpExp q)
  have h1 : roundEven ((0 : ℤ) : ℚ) ≤ roundEven (q / pow2 (ulpExp q)) := by
    apply roundEven_mono; push_cast; positivity
  rw [roundEven_int] at h1
  have : (0 : ℚ) ≤ roundEven (q / pow2 (ulpExp q)) := by exact_mod_cast h1
  positivity

theorem rndQ_mono_pos {x y : ℚ} (hx : 0 < x) (h : x ≤ y) : rndQ x ≤ rndQ y := by
  have hy : 0 < y := lt_of_lt_of_le hx h
  by_cases he : ulpExp x = ulpExp y
  · unfold rndQ; rw [he]
    have hp := pow2_pos (ulpExp y)
    have := roundEven_mono (x := x / pow2 (ulpExp y)) (y := y / pow2 (ulpExp y))
      (by gcongr)
    have h2 : (roundEven (x / pow2 (ulpExp y)) : ℚ) ≤ roundEven (y / pow2 (ulpExp y)) := by
      exact_mod_cast this
    exact mul_le_mul_of_nonneg_right h2 hp.le
  · have hlog : Int.log 2 |x| ≤ Int.log 2 |y| := by
      apply Int.log_mono_right (abs_pos.2 hx.ne')
      rw [abs_of_pos hx, abs_of_pos hy]; exact h
    have hlt : ulpExp x < ulpExp y := by
      unfold ulpExp at *; omega
    -- the boundary point between the two binades
    have hx1 : rndQ x ≤ 2 ^ 24 * pow2 (ulpExp x) := by
      have h1 := roundEven_ulp_le x
      have h2 : roundEven (x / pow2 (ulpExp x)) ≤ 2 ^ 24 := (abs_le.1 h1).2
      have h3 : (roundEven (x / pow2 (ulpExp x)) : ℚ) ≤ 2 ^ 24 := by exact_mod_cast h2
      unfold rndQ
      exact mul_le_mul_of_nonneg_right h3 (pow2_pos _).le
    have hyb : ulpExp y = Int.log 2 |y| - 23 := by
      unfold ulpExp at *; omega
    have hy1 : pow2 (ulpExp y + 23) ≤ y := by
      have h1 : ((2 : ℕ) : ℚ) ^ Int.log 2 |y| ≤ |y| := Int.zpow_log_le_self (by norm_num) (abs_pos.2 hy.ne')
      push_cast at h1
      rw [← pow2_eq, abs_of_pos hy] at h1
      rw [hyb]; rw [abs_of_pos hy]
      simpa using h1
    have hy2 : pow2 (ulpExp y + 23) ≤ rndQ y := by
      have hp := pow2_pos (ulpExp y)
      have h23 : pow2 (ulpExp y + 23) = ((2 ^ 23 : ℤ) : ℚ) * pow2 (ulpExp y) := by
        rw [add_comm, pow2_add]; congr 1
      rw [h23] at hy1 ⊢
      unfold rndQ
      apply mul_le_mul_of_nonneg_right _ hp.le
      have := roundEven_mono (x := ((2 ^ 23 : ℤ) : ℚ)) (y := y / pow2 (ulpExp y))
        (by rw [le_div_iff₀ hp]; exact hy1)
      rw [roundEven_int] at this
      exact_mod_cast this
    have h5 : (2 : ℚ) ^ 24 * pow2 (ulpExp x) = pow2 (24 + ulpExp x) := by
      rw [pow2_add]; congr 1
    calc rndQ x ≤ pow2 (24 + ulpExp x) := by rw [← h5]; exact hx1
      _ ≤ pow2 (ulpExp y + 23) := pow2_le (by omega)
      _ ≤ rndQ y := hy2

theorem rndQ_mono {x y : ℚ} (h : x ≤ y) : rndQ x ≤ rndQ y := by
  rcases lt_trichotomy x 0 with hx | hx | hx
  · rcases lt_or_ge y 0 with hy | hy
    · have := rndQ_mono_pos (x := -y) (y := -x) (by linarith) (by linarith)
      simp only [rndQ_neg] at this; linarith
    · have h1 := rndQ_nonneg hy
      have h2 := rndQ_nonneg (q := -x) (by linarith)
      rw [rndQ_neg] at h2; linarith
  · subst hx; rw [rndQ_zero]; exact rndQ_nonneg h
  · exact rndQ_mono_pos hx h

theorem rndQ_le_of_onGrid {x b : ℚ} (hb : OnGrid b) (h : x ≤ b) : rndQ x ≤ b := by
  have := rndQ_mono h; rwa [hb] at this

theorem le_rndQ_of_onGrid {x b : ℚ} (hb : OnGrid b) (h : b ≤ x) : b ≤ rndQ x := by
  have := rndQ_mono h; rwa [hb] at this

theorem abs_rndQ (q : ℚ) : |rndQ q| = rndQ |q| := by
  rcases le_total 0 q with h | h
  · rw [abs_of_nonneg h, abs_of_nonneg (rndQ_nonneg h)]
  · rw [abs_of_nonpos h, rndQ_neg]
    rw [abs_of_nonpos]
    have := rndQ_nonneg (q := -q) (by linarith)
    rw [rndQ_neg] at this; linarith

/-- Relative error of rounding in the normal range. -/
theorem abs_rndQ_sub_le_rel {q : ℚ} (h : pow2 (-126) ≤ |q|) : |rndQ q - q| ≤ |q| * pow2 (-24) := by
  have h1 := abs_rndQ_sub_le q
  have hL : -126 ≤ Int.log 2 |q| := le_log_of_le h
  have he : ulpExp q = Int.log 2 |q| - 23 := by unfold ulpExp; omega
  have hpos : 0 < |q| := lt_of_lt_of_le (pow2_pos _) h
  have h2 : ((2 : ℕ) : ℚ) ^ Int.log 2 |q| ≤ |q| := Int.zpow_log_le_self (by norm_num) hpos
  push_cast at h2
  rw [← pow2_eq] at h2
  have h3 : pow2 (ulpExp q) / 2 = pow2 (Int.log 2 |q|) * pow2 (-24) := by
    rw [he, ← pow2_add, show Int.log 2 |q| - 23 = (Int.log 2 |q| + -24) + 1 by ring, pow2_add _ 1]
    have : pow2 1 = 2 := by rfl
    rw [this]; ring
  rw [h3] at h1
  exact h1.trans (mul_le_mul_of_nonneg_right h2 (pow2_pos _).le)

/-- Absolute error of rounding in the subnormal range. -/
theorem abs_rndQ_sub_le_sub {q : ℚ} (h : |q| ≤ pow2 (-126)) : |rndQ q - q| ≤ pow2 (-150) := by
  rcases eq_or_lt_of_le h with h | h
  · have := abs_rndQ_sub_le_rel (q := q) h.ge
    rw [h, ← pow2_add] at this
    exact this.trans (pow2_le (by norm_num))
  by_cases hq : q = 0
  · subst hq; rw [rndQ_zero]; simp [(pow2_pos _).le]
  have h1 := abs_rndQ_sub_le q
  have hL : Int.log 2 |q| ≤ -127 := log_le_of_lt hq (by simpa using h)
  have he : ulpExp q = -149 := by unfold ulpExp; omega
  rw [he] at h1
  refine h1.trans (le_of_eq ?_)
  rw [show (-149 : ℤ) = -150 + 1 by norm_num, pow2_add]
  have : pow2 1 = 2 := by rfl
  rw [this]; ring

end Verif
