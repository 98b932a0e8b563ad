/-
Lemmas about the `f32` model used by the property proofs.
-/
import Verif.F32.Basic

namespace Verif
namespace F32

/-! ### Defining equations -/

theorem add_fin {a b : ℚ} {ha hb} : fin a ha + fin b hb = rnd (a + b) := rfl
theorem sub_fin {a b : ℚ} {ha hb} : fin a ha - fin b hb = rnd (a - b) := by
  show rnd (a + -b) = _; rw [sub_eq_add_neg]
theorem mul_fin {a b : ℚ} {ha hb} : fin a ha * fin b hb = rnd (a * b) := rfl
theorem div_fin {a b : ℚ} {ha hb} (h : b ≠ 0) : fin a ha / fin b hb = rnd (a / b) := by
  show (if b = 0 then _ else rnd (a / b)) = _; rw [if_neg h]
theorem div_fin_zero {a : ℚ} {ha hb} : fin a ha / fin 0 hb = if a = 0 then nan else inf (decide (a < 0)) := by
  show (if (0 : ℚ) = 0 then (if a = 0 then nan else inf (decide (a < 0))) else rnd (a / 0)) = _
  rw [if_pos rfl]
theorem neg_fin {a : ℚ} {ha} : -fin a ha = fin (-a) (neg_aux ha) := rfl

@[simp] theorem nan_add (a : F32) : nan + a = nan := rfl
@[simp] theorem add_nan (a : F32) : a + nan = nan := by rcases a with _ | _ | _ <;> rfl
@[simp] theorem nan_sub (a : F32) : nan - a = nan := rfl
@[simp] theorem sub_nan (a : F32) : a - nan = nan := by rcases a with _ | _ | _ <;> rfl
@[simp] theorem nan_mul (a : F32) : nan * a = nan := rfl
@[simp] theorem mul_nan (a : F32) : a * nan = nan := by rcases a with _ | _ | _ <;> rfl
@[simp] theorem nan_div (a : F32) : nan / a = nan := rfl
@[simp] theorem div_nan (a : F32) : a / nan = nan := by rcases a with _ | _ | _ <;> rfl
@[simp] theorem abs_nan : abs nan = nan := rfl
@[simp] theorem sqrt_nan : sqrt nan = nan := rfl
@[simp] theorem neg_nan : -nan = nan := rfl
@[simp] theorem neg_inf (s) : -inf s = inf (!s) := rfl
theorem inf_add_fin {s b} {hb} : inf s + fin b hb = inf s := rfl
theorem fin_add_inf {s b} {hb} : fin b hb + inf s = inf s := rfl
theorem inf_add_inf {s t} : inf s + inf t = if s = t then inf s else nan := rfl
theorem inf_mul_fin {s b} {hb} : inf s * fin b hb = if b = 0 then nan else inf (s != decide (b < 0)) := rfl
theorem fin_mul_inf {s b} {hb} : fin b hb * inf s = if b = 0 then nan else inf (s != decide (b < 0)) := rfl
theorem inf_mul_inf {s t} : inf s * inf t = inf (s != t) := rfl
theorem inf_div_inf {s t} : inf s / inf t = nan := rfl
theorem inf_div_fin {s b} {hb} : inf s / fin b hb = inf (s != decide (b < 0)) := rfl
theorem fin_div_inf {s b} {hb} : fin b hb / inf s = 0 := rnd_zero
theorem sub_eq (a b : F32) : a - b = a + -b := rfl

theorem add_comm (a b : F32) : a + b = b + a := by
  rcases a with _ | s | ⟨a, ha⟩ <;> rcases b with _ | t | ⟨b, hb⟩ <;> try rfl
  · simp only [inf_add_inf]; rcases s with _ | _ <;> rcases t with _ | _ <;> rfl
  · rw [add_fin, add_fin, _root_.add_comm]

theorem mul_comm (a b : F32) : a * b = b * a := by
  rcases a with _ | s | ⟨a, ha⟩ <;> rcases b with _ | t | ⟨b, hb⟩ <;> try rfl
  · simp only [inf_mul_inf]; rcases s with _ | _ <;> rcases t with _ | _ <;> rfl
  · rw [mul_fin, mul_fin, _root_.mul_comm]

/-! ### Finite results -/

theorem isFinite_iff {a : F32} : a.isFinite = true ↔ ∃ v hv, a = fin v hv := by
  rcases a with _ | _ | ⟨v, hv⟩ <;> simp [isFinite]
  exact hv

theorem ne_nan_of_isFinite {a : F32} (h : a.isFinite = true) : a ≠ nan := by
  obtain ⟨v, hv, rfl⟩ := isFinite_iff.1 h; simp

theorem rnd_finite_of_abs_le {q b : ℚ} (hb : OnGrid b ∧ |b| < pow2 128) (h : |q| ≤ b) :
    ∃ hq, rnd q = fin (rndQ q) hq ∧ |rndQ q| ≤ b := by
  have h' := abs_le.1 h
  obtain ⟨hq, e, l, u⟩ := rnd_between (x := q) ⟨onGrid_neg hb.1, by rw [abs_neg]; exact hb.2⟩ hb
    (by linarith) h'.2
  exact ⟨hq, e, abs_le.2 ⟨l, u⟩⟩

theorem rnd_zero_eq : rnd 0 = fin 0 grid_zero := rnd_val grid_zero

/-! ### Grid facts: gradual underflow -/

theorem onGrid_dvd {v : ℚ} (h : OnGrid v) : ∃ k : ℤ, v = k * pow2 (-149) := by
  obtain ⟨m, e, _, he, rfl⟩ := (onGrid_iff v).1 h
  obtain ⟨n, hn⟩ := Int.eq_ofNat_of_zero_le (show 0 ≤ e + 149 by omega)
  refine ⟨m * 2 ^ n, ?_⟩
  push_cast
  rw [mul_assoc, ← pow2_nat, ← pow2_add]
  congr 2; omega

theorem grid_sub_ge {a b : ℚ} (ha : OnGrid a) (hb : OnGrid b) (h : a < b) : pow2 (-149) ≤ b - a := by
  obtain ⟨k, rfl⟩ := onGrid_dvd ha
  obtain ⟨l, rfl⟩ := onGrid_dvd hb
  have hp := pow2_pos (-149)
  have : k < l := by
    have := (mul_lt_mul_iff_left₀ hp).1 h
    exact_mod_cast this
  have h1 : (1 : ℚ) ≤ (l : ℚ) - k := by
    have : (k : ℚ) + 1 ≤ l := by exact_mod_cast this
    linarith
  have := mul_le_mul_of_nonneg_right h1 hp.le
  linarith

/-- With gradual underflow a difference is positive exactly when the operands are ordered. -/
theorem sub_pos_iff {a b : F32} (ha : a.isFinite = true) (hb : b.isFinite = true) :
    0 < b - a ↔ a < b := by
  obtain ⟨x, hx, rfl⟩ := isFinite_iff.1 ha
  obtain ⟨y, hy, rfl⟩ := isFinite_iff.1 hb
  rw [sub_fin, fin_lt_fin]
  constructor
  · intro h
    by_contra hc
    exact not_lt_of_le (rnd_nonpos (q := y - x) (by linarith)) h
  · intro h
    have h1 := grid_sub_ge hx.1 hy.1 h
    have hg : OnGrid (pow2 (-149)) ∧ |pow2 (-149)| < pow2 128 :=
      ⟨onGrid_pow2 (by norm_num), by rw [abs_of_pos (pow2_pos _)]; exact pow2_lt (by norm_num)⟩
    refine lt_of_lt_of_le ?_ (fin_le_rnd (hv := hg) h1)
    rw [zero_def, fin_lt_fin]; exact pow2_pos _

theorem sub_nonneg_of_le {a b : F32} (h : a ≤ b) (hn : b - a ≠ nan) : 0 ≤ b - a := by
  rcases a with _ | (_ | _) | ⟨x, hx⟩ <;> rcases b with _ | (_ | _) | ⟨y, hy⟩ <;>
    simp_all [sub_eq, inf_add_inf, inf_add_fin, fin_add_inf, neg_fin, zero_def]
  rw [add_fin]; exact fin_le_rnd (by linarith)

/-! ### Monotonicity -/

theorem add_le_add {a b c d : F32} (h1 : a ≤ b) (h2 : c ≤ d) (hn : a + c ≠ nan) (hm : b + d ≠ nan) :
    a + c ≤ b + d := by
  rcases a with _ | (_ | _) | ⟨a, ha⟩ <;> rcases b with _ | (_ | _) | ⟨b, hb⟩ <;>
  rcases c with _ | (_ | _) | ⟨c, hc⟩ <;> rcases d with _ | (_ | _) | ⟨d, hd⟩ <;>
    simp_all [inf_add_inf, inf_add_fin, fin_add_inf, le_def, toW, add_fin]
  exact toW_rnd_mono (by linarith)

theorem mul_le_mul_of_nonneg_right {a b c : F32} (h : a ≤ b) (hc : 0 ≤ c) (hn : a * c ≠ nan)
    (hm : b * c ≠ nan) : a * c ≤ b * c := by
  rcases nonneg_cases hc with rfl | ⟨c, hc', rfl, hc0⟩
  · rcases a with _ | (_ | _) | ⟨a, ha⟩ <;> rcases b with _ | (_ | _) | ⟨b, hb⟩ <;>
      simp_all [inf_mul_inf, fin_mul_inf, le_def, toW]
    by_cases h1 : a < 0 <;> by_cases h2 : b < 0 <;> simp [h1, h2]
    linarith
  · rcases a with _ | (_ | _) | ⟨a, ha⟩ <;> rcases b with _ | (_ | _) | ⟨b, hb⟩ <;>
      simp_all [inf_mul_fin, le_def, toW, mul_fin]
    all_goals try simp [not_lt.2 hc0]
    exact toW_rnd_mono (_root_.mul_le_mul_of_nonneg_right h hc0)

theorem mul_le_mul_of_nonneg_left {a b c : F32} (h : a ≤ b) (hc : 0 ≤ c) (hn : c * a ≠ nan)
    (hm : c * b ≠ nan) : c * a ≤ c * b := by
  rw [mul_comm c a, mul_comm c b] at *
  exact mul_le_mul_of_nonneg_right h hc hn hm

theorem add_nonneg {a b : F32} (ha : 0 ≤ a) (hb : 0 ≤ b) : 0 ≤ a + b := by
  rcases nonneg_cases ha with rfl | ⟨a, ha', rfl, ha0⟩ <;>
  rcases nonneg_cases hb with rfl | ⟨b, hb', rfl, hb0⟩ <;>
    simp_all [inf_add_inf, inf_add_fin, fin_add_inf, zero_def]
  rw [add_fin]; exact fin_le_rnd (by linarith)

theorem mul_nonneg {a b : F32} (ha : 0 ≤ a) (hb : 0 ≤ b) (hn : a * b ≠ nan) : 0 ≤ a * b := by
  rcases nonneg_cases ha with rfl | ⟨a, ha', rfl, ha0⟩ <;>
  rcases nonneg_cases hb with rfl | ⟨b, hb', rfl, hb0⟩ <;>
    simp_all [inf_mul_inf, inf_mul_fin, fin_mul_inf, zero_def]
  · simp [not_lt.2 hb0]
  · simp [not_lt.2 ha0]
  · rw [mul_fin]; exact fin_le_rnd (by positivity)

theorem mul_fin_ne_nan {a b : F32} (ha : a.isFinite = true) (hb : b.isFinite = true) : a * b ≠ nan := by
  obtain ⟨x, hx, rfl⟩ := isFinite_iff.1 ha
  obtain ⟨y, hy, rfl⟩ := isFinite_iff.1 hb
  rw [mul_fin]; exact rnd_ne_nan _

theorem add_fin_ne_nan {a b : F32} (ha : a.isFinite = true) (hb : b ≠ nan) : a + b ≠ nan := by
  obtain ⟨x, hx, rfl⟩ := isFinite_iff.1 ha
  rcases b with _ | s | ⟨y, hy⟩
  · exact absurd rfl hb
  · rw [fin_add_inf]; simp
  · rw [add_fin]; exact rnd_ne_nan _

theorem sub_fin_ne_nan {a b : F32} (ha : a.isFinite = true) (hb : b.isFinite = true) : a - b ≠ nan := by
  obtain ⟨x, hx, rfl⟩ := isFinite_iff.1 ha
  obtain ⟨y, hy, rfl⟩ := isFinite_iff.1 hb
  rw [sub_fin]; exact rnd_ne_nan _

theorem le_add_right {a b : F32} (ha : 0 ≤ a) (hb : 0 ≤ b) : a ≤ a + b := by
  have hn := ne_nan_right (add_nonneg ha hb)
  rcases nonneg_cases ha with rfl | ⟨a, ha', rfl, ha0⟩ <;>
  rcases nonneg_cases hb with rfl | ⟨b, hb', rfl, hb0⟩ <;>
    simp_all [inf_add_inf, inf_add_fin, fin_add_inf, zero_def]
  rw [add_fin]; exact fin_le_rnd (by linarith)

theorem le_add_left {a b : F32} (ha : 0 ≤ a) (hb : 0 ≤ b) : b ≤ a + b := by
  rw [add_comm]; exact le_add_right hb ha

theorem div_nonneg {a b : F32} (ha : 0 ≤ a) (hb : 0 ≤ b) (hn : a / b ≠ nan) : 0 ≤ a / b := by
  rcases nonneg_cases ha with rfl | ⟨a, ha', rfl, ha0⟩ <;>
  rcases nonneg_cases hb with rfl | ⟨b, hb', rfl, hb0⟩ <;>
    simp_all [inf_div_inf, inf_div_fin, fin_div_inf]
  · simp [not_lt.2 hb0, zero_def]
  · exact le_refl (by simp)
  · by_cases h : b = 0
    · subst h
      rw [div_fin_zero] at *
      split_ifs at * with h'
      · exact absurd rfl hn
      · simp [not_lt.2 ha0, zero_def]
    · rw [div_fin h, zero_def]; exact fin_le_rnd (by positivity)

theorem div_fin_ne_nan {a b : F32} (ha : a.isFinite = true) (hb : 0 < b) : a / b ≠ nan := by
  obtain ⟨x, hx, rfl⟩ := isFinite_iff.1 ha
  rcases nonneg_cases (le_of_lt hb) with rfl | ⟨y, hy, rfl, h0⟩
  · rw [fin_div_inf]; simp
  · rw [zero_def, fin_lt_fin] at hb
    rw [div_fin hb.ne']; exact rnd_ne_nan _

theorem div_le_div_right {a b c : F32} (h : a ≤ b) (hc : 0 < c) (hn : a / c ≠ nan) (hm : b / c ≠ nan) :
    a / c ≤ b / c := by
  rcases nonneg_cases (le_of_lt hc) with rfl | ⟨y, hy, rfl, h0⟩
  · rcases a with _ | (_ | _) | ⟨a, ha⟩ <;> rcases b with _ | (_ | _) | ⟨b, hb⟩ <;>
      simp_all [inf_div_inf, fin_div_inf]
    exact le_refl (by simp)
  · rw [zero_def, fin_lt_fin] at hc
    rcases a with _ | (_ | _) | ⟨a, ha⟩ <;> rcases b with _ | (_ | _) | ⟨b, hb⟩ <;>
      simp_all [inf_div_fin, div_fin hc.ne', le_def, toW, not_lt.2 h0]
    exact toW_rnd_mono (by gcongr)

/-- `x / y ≤ 1` when `0 ≤ x ≤ y`, `y` positive and finite. -/
theorem div_le_one {x y : F32} (hx : 0 ≤ x) (h : x ≤ y) (hy : 0 < y) (hf : y.isFinite = true) :
    0 ≤ x / y ∧ x / y ≤ 1 := by
  obtain ⟨b, hb, rfl⟩ := isFinite_iff.1 hf
  rw [zero_def] at *
  obtain ⟨a, ha, rfl, h0, h1⟩ := between_cases hx h
  rw [fin_lt_fin] at hy
  rw [div_fin hy.ne', one_def]
  exact ⟨fin_le_rnd (by positivity), rnd_le_fin ((_root_.div_le_one hy).2 h1)⟩

theorem mul_le_of_le_one {x y : F32} (hx : 0 ≤ x) (hy0 : 0 ≤ y) (hy : y ≤ 1) (hf : x.isFinite = true) :
    0 ≤ x * y ∧ x * y ≤ x := by
  obtain ⟨a, ha, rfl⟩ := isFinite_iff.1 hf
  rw [zero_def] at *; rw [one_def] at *
  obtain ⟨b, hb, rfl, h0, h1⟩ := between_cases hy0 hy
  rw [fin_le_fin] at hx
  rw [mul_fin]
  exact ⟨fin_le_rnd (by positivity), rnd_le_fin (by nlinarith)⟩

/-! ### abs, max, min, clamp -/

theorem abs_ne_nan {a : F32} (h : a ≠ nan) : a.abs ≠ nan := by
  rcases a with _ | _ | _ <;> simp_all [abs]
theorem abs_nonneg {a : F32} (h : a ≠ nan) : 0 ≤ a.abs := by
  rcases a with _ | _ | ⟨v, hv⟩ <;> simp_all [abs, zero_def]
theorem abs_fin {v : ℚ} {hv} : abs (fin v hv) = fin |v| (abs_aux hv) := rfl
theorem isFinite_abs {a : F32} : a.abs.isFinite = a.isFinite := by
  rcases a with _ | _ | _ <;> rfl

theorem max_eq_left_or_right (a b : F32) : max a b = a ∨ max a b = b := by
  unfold max; split_ifs <;> simp

theorem max_ne_nan_left {a b : F32} (h : a ≠ nan) : max a b ≠ nan := by
  unfold max
  rw [if_neg (by rw [isNaN_iff]; exact h)]
  split_ifs with h1 h2
  · exact h
  · rwa [isNaN_iff] at h1
  · exact h

theorem max_ne_nan_right {a b : F32} (h : b ≠ nan) : max a b ≠ nan := by
  unfold max
  split_ifs with h0 h1 h2
  · exact h
  · rw [isNaN_iff] at h1; exact absurd h1 h
  · exact h
  · rwa [isNaN_iff] at h0

theorem le_max_left {a b : F32} (h : a ≠ nan) : a ≤ max a b := by
  unfold max
  rw [if_neg (by rw [isNaN_iff]; exact h)]
  split_ifs with h1 h2
  · exact le_refl h
  · exact le_of_lt h2
  · exact le_refl h

theorem le_max_right {a b : F32} (h : b ≠ nan) : b ≤ max a b := by
  unfold max
  split_ifs with h0 h1 h2
  · exact le_refl h
  · rw [isNaN_iff] at h1; exact absurd h1 h
  · exact le_refl h
  · exact le_of_not_lt h (by rwa [isNaN_iff] at h0) h2

theorem max_le {a b c : F32} (ha : a ≤ c) (hb : b ≤ c) : max a b ≤ c := by
  rcases max_eq_left_or_right a b with h | h <;> rw [h] <;> assumption

theorem min_eq_left_or_right (a b : F32) : min a b = a ∨ min a b = b := by
  unfold min; split_ifs <;> simp

theorem min_le_left {a b : F32} (h : a ≠ nan) : min a b ≤ a := by
  unfold min
  rw [if_neg (by rw [isNaN_iff]; exact h)]
  split_ifs with h1 h2
  · exact le_refl h
  · exact le_of_lt h2
  · exact le_refl h

theorem min_le_right {a b : F32} (h : b ≠ nan) : min a b ≤ b := by
  unfold min
  split_ifs with h0 h1 h2
  · exact le_refl h
  · rw [isNaN_iff] at h1; exact absurd h1 h
  · exact le_refl h
  · exact le_of_not_lt (by rwa [isNaN_iff] at h0) h h2

theorem le_min {a b c : F32} (ha : c ≤ a) (hb : c ≤ b) : c ≤ min a b := by
  rcases min_eq_left_or_right a b with h | h <;> rw [h] <;> assumption

theorem min_ne_nan_right {a b : F32} (h : b ≠ nan) : min a b ≠ nan := ne_nan_left (min_le_right h)
theorem min_ne_nan_left {a b : F32} (h : a ≠ nan) : min a b ≠ nan := ne_nan_left (min_le_left h)

theorem clamp_nan (lo hi : F32) : clamp nan lo hi = nan := by simp [clamp]

theorem clamp_mem {x lo hi : F32} (hx : x ≠ nan) (h : lo ≤ hi) :
    lo ≤ clamp x lo hi ∧ clamp x lo hi ≤ hi := by
  have hlo := ne_nan_left h
  have hhi := ne_nan_right h
  unfold clamp; dsimp only
  split_ifs with h1 h2 h3
  · exact absurd h2 (not_lt_of_le h)
  · exact ⟨le_refl hlo, h⟩
  · exact ⟨h, le_refl hhi⟩
  · exact ⟨le_of_not_lt hlo hx h1, le_of_not_lt hx hhi h3⟩

theorem clamp_eq_self {x lo hi : F32} (h1 : lo ≤ x) (h2 : x ≤ hi) : clamp x lo hi = x := by
  unfold clamp; dsimp only
  rw [if_neg (not_lt_of_le h1), if_neg (not_lt_of_le h2)]

theorem clamp01 {x : F32} (hx : x ≠ nan) : 0 ≤ clamp x 0 1 ∧ clamp x 0 1 ≤ 1 :=
  clamp_mem hx zero_le_one

/-! ### Sums and maxima of lists -/

theorem foldl_add_nonneg {l : List F32} {a : F32} (ha : 0 ≤ a) (h : ∀ x ∈ l, 0 ≤ x) :
    a ≤ l.foldl (· + ·) a ∧ 0 ≤ l.foldl (· + ·) a ∧ ∀ x ∈ l, x ≤ l.foldl (· + ·) a := by
  induction l generalizing a with
  | nil => exact ⟨le_refl (ne_nan_right ha), ha, by simp⟩
  | cons y l ih =>
    have hy : 0 ≤ y := h y (by simp)
    obtain ⟨h1, h2, h3⟩ := ih (a := a + y) (add_nonneg ha hy) (fun x hx => h x (by simp [hx]))
    refine ⟨le_trans (le_add_right ha hy) h1, h2, ?_⟩
    intro x hx
    rcases List.mem_cons.1 hx with rfl | hx
    · exact le_trans (le_add_left ha hy) h1
    · exact h3 x hx

theorem sum_nonneg {l : List F32} (h : ∀ x ∈ l, 0 ≤ x) : 0 ≤ sum l :=
  (foldl_add_nonneg (le_refl zero_ne_nan) h).2.1

theorem le_sum {l : List F32} (h : ∀ x ∈ l, 0 ≤ x) {x : F32} (hx : x ∈ l) : x ≤ sum l :=
  (foldl_add_nonneg (le_refl zero_ne_nan) h).2.2 x hx

theorem foldMax_spec {l : List F32} {a : F32} (ha : a ≠ nan) :
    a ≤ foldMax a l ∧ foldMax a l ≠ nan ∧ (∀ x ∈ l, x ≠ nan → x ≤ foldMax a l) ∧
      (foldMax a l = a ∨ foldMax a l ∈ l) := by
  induction l generalizing a with
  | nil => exact ⟨le_refl ha, ha, by simp, .inl rfl⟩
  | cons y l ih =>
    have hn : max a y ≠ nan := max_ne_nan_left ha
    obtain ⟨h1, h2, h3, h4⟩ := ih (a := max a y) hn
    have e : foldMax a (y :: l) = foldMax (max a y) l := rfl
    rw [e]
    refine ⟨le_trans (le_max_left ha) h1, h2, ?_, ?_⟩
    · intro x hx hxn
      rcases List.mem_cons.1 hx with rfl | hx
      · exact le_trans (le_max_right hxn) h1
      · exact h3 x hx hxn
    · rcases h4 with h4 | h4
      · rw [h4]
        rcases max_eq_left_or_right a y with h | h <;> rw [h]
        · exact .inl rfl
        · exact .inr (by simp)
      · exact .inr (by simp [h4])

/-! ### Conversions -/

theorem ofNat_ne_nan (n : ℕ) : ofNat n ≠ nan := rnd_ne_nan _
theorem ofNat_nonneg (n : ℕ) : 0 ≤ ofNat n := rnd_nonneg (by positivity)
theorem ofNat_mono {m n : ℕ} (h : m ≤ n) : ofNat m ≤ ofNat n := rnd_mono (by exact_mod_cast h)
theorem ofNat_one : ofNat 1 = 1 := by unfold ofNat; rw [Nat.cast_one, rnd_one]
theorem ofNat_zero : ofNat 0 = 0 := by unfold ofNat; rw [Nat.cast_zero, rnd_zero]
theorem one_le_ofNat {n : ℕ} (h : 0 < n) : 1 ≤ ofNat n := by
  rw [← ofNat_one]; exact ofNat_mono h
theorem ofNat_pos {n : ℕ} (h : 0 < n) : 0 < ofNat n := lt_of_lt_of_le zero_lt_one (one_le_ofNat h)
theorem ofNat_exact {n : ℕ} (h : n ≤ 2 ^ 24) : ofNat n = fin n (grid_nat h) := rnd_val _

/-- every `usize` (indeed every integer up to 2^127) converts to a finite `f32` -/
theorem ofNat_finite {n : ℕ} (h : n ≤ 2 ^ 127) : (ofNat n).isFinite = true := by
  have hg : OnGrid (pow2 127) ∧ |pow2 127| < pow2 128 :=
    ⟨onGrid_pow2 (by norm_num), by rw [abs_of_pos (pow2_pos _)]; exact pow2_lt (by norm_num)⟩
  have hn : |((n : ℕ) : ℚ)| ≤ pow2 127 := by
    rw [abs_of_nonneg (by positivity), show (127 : ℤ) = ((127 : ℕ) : ℤ) by norm_num, pow2_nat]
    exact_mod_cast h
  obtain ⟨hq, e, _⟩ := rnd_finite_of_abs_le hg hn
  unfold ofNat; rw [e]; rfl

/-! ### Square root -/

theorem sqrtQ_nonneg (v : ℚ) : 0 ≤ sqrtQ v := by unfold sqrtQ; positivity

theorem sqrt_nonneg {a : F32} (h : 0 ≤ a) : 0 ≤ sqrt a := by
  rcases nonneg_cases h with rfl | ⟨v, hv, rfl, h0⟩
  · exact h
  · unfold sqrt; dsimp only; rw [if_neg (not_lt.2 h0)]; exact rnd_nonneg (sqrtQ_nonneg v)

theorem sqrtQ_mono {v w : ℚ} (h : v ≤ w) : sqrtQ v ≤ sqrtQ w := by
  unfold sqrtQ; dsimp only
  have hn : ⌊v * ((2 ^ 400 : ℕ) : ℚ)⌋.toNat ≤ ⌊w * ((2 ^ 400 : ℕ) : ℚ)⌋.toNat := by
    apply Int.toNat_le_toNat
    apply Int.floor_le_floor
    gcongr
  generalize ⌊v * ((2 ^ 400 : ℕ) : ℚ)⌋.toNat = n at *
  generalize ⌊w * ((2 ^ 400 : ℕ) : ℚ)⌋.toNat = m at *
  have hs : n.sqrt ≤ m.sqrt := Nat.sqrt_le_sqrt hn
  have : (2 * n.sqrt + (if n.sqrt * n.sqrt = n then 0 else 1)) ≤
      (2 * m.sqrt + (if m.sqrt * m.sqrt = m then 0 else 1)) := by
    rcases Nat.lt_or_ge n.sqrt m.sqrt with hlt | hge
    · split_ifs <;> omega
    · have he : n.sqrt = m.sqrt := by omega
      rw [he]
      have := Nat.sqrt_le n
      have := Nat.sqrt_le m
      rw [he] at *
      split_ifs with h1 h2 <;> omega
  gcongr

theorem sqrt_mono {a b : F32} (h0 : 0 ≤ a) (h : a ≤ b) : sqrt a ≤ sqrt b := by
  rcases nonneg_cases h0 with rfl | ⟨v, hv, rfl, hv0⟩ <;>
  rcases nonneg_cases (le_trans h0 h) with rfl | ⟨w, hw, rfl, hw0⟩
  · exact h
  · simp at h
  · unfold sqrt; dsimp only; rw [if_neg (not_lt.2 hv0)]
    unfold rnd; split_ifs <;> simp [le_def, toW]
  · rw [fin_le_fin] at h
    unfold sqrt; dsimp only; rw [if_neg (not_lt.2 hv0), if_neg (not_lt.2 hw0)]
    exact rnd_mono (sqrtQ_mono h)

theorem sqrt_zero : sqrt 0 = 0 := by rw [zero_def]; decide +kernel

end F32
end Verif
