/-
Concrete model of Rust's `f32` (IEEE-754 binary32, round to nearest even).

Simplification: the two zeros are merged (a finite value is a rational number), and
all NaNs are merged.  The sign of a zero divisor is taken to be `+`.
-/
import Verif.F32.Round
import Mathlib.Data.Nat.Sqrt
import Mathlib.Order.WithBot

namespace Verif

/-- `f32`: NaN, the two infinities (`inf true` is `-∞`), and the finite
representable values. -/
inductive F32 where
  | nan
  | inf (neg : Bool)
  | fin (v : ℚ) (h : OnGrid v ∧ |v| < pow2 128)
deriving DecidableEq

namespace F32

theorem rnd_aux {q : ℚ} (h1 : ¬ pow2 128 ≤ rndQ q) (h2 : ¬ rndQ q ≤ -pow2 128) :
    OnGrid (rndQ q) ∧ |rndQ q| < pow2 128 :=
  ⟨onGrid_rndQ q, abs_lt.2 ⟨not_le.1 h2, not_le.1 h1⟩⟩

/-- Round an exact rational to `f32` (overflow goes to infinity). -/
def rnd (q : ℚ) : F32 :=
  if h1 : pow2 128 ≤ rndQ q then inf false
  else if h2 : rndQ q ≤ -pow2 128 then inf true
  else fin (rndQ q) (rnd_aux h1 h2)

/-- Integer literals and `n as f32`. -/
instance (n : ℕ) : OfNat F32 n := ⟨rnd n⟩
/-- Decimal literals, correctly rounded as rustc does. -/
instance : OfScientific F32 := ⟨fun m s e => rnd (OfScientific.ofScientific m s e)⟩

/-- `n as f32` for an unsigned integer. -/
def ofNat (n : ℕ) : F32 := rnd n
/-- `n as f32` for a signed integer. -/
def ofInt (n : ℤ) : F32 := rnd n

instance : Inhabited F32 := ⟨rnd 0⟩

def isNaN : F32 → Bool
  | nan => true
  | _ => false

/-- `f32::is_finite` -/
def isFinite : F32 → Bool
  | fin _ _ => true
  | _ => false

/-- Value of a finite number (junk 0 otherwise; used only in specifications of finite values). -/
def val : F32 → ℚ
  | fin v _ => v
  | _ => 0

def ble : F32 → F32 → Bool
  | nan, _ => false
  | _, nan => false
  | inf true, _ => true
  | _, inf false => true
  | fin a _, fin b _ => decide (a ≤ b)
  | _, _ => false

def blt : F32 → F32 → Bool
  | nan, _ => false
  | _, nan => false
  | inf true, inf true => false
  | inf true, _ => true
  | inf false, _ => false
  | fin _ _, inf false => true
  | fin a _, fin b _ => decide (a < b)
  | _, _ => false

/-- `a <= b` (false on NaN) -/
instance : LE F32 := ⟨fun a b => ble a b = true⟩
/-- `a < b` (false on NaN) -/
instance : LT F32 := ⟨fun a b => blt a b = true⟩
instance (a b : F32) : Decidable (a ≤ b) := inferInstanceAs (Decidable (_ = true))
instance (a b : F32) : Decidable (a < b) := inferInstanceAs (Decidable (_ = true))

/-- IEEE equality `a == b`: false on NaN. -/
def feq (a b : F32) : Bool := !a.isNaN && decide (a = b)

theorem neg_aux {v : ℚ} (h : OnGrid v ∧ |v| < pow2 128) : OnGrid (-v) ∧ |-v| < pow2 128 :=
  ⟨onGrid_neg h.1, by rw [abs_neg]; exact h.2⟩

def neg : F32 → F32
  | nan => nan
  | inf s => inf (!s)
  | fin v h => fin (-v) (neg_aux h)

theorem abs_aux {v : ℚ} (h : OnGrid v ∧ |v| < pow2 128) : OnGrid |v| ∧ |(|v|)| < pow2 128 :=
  ⟨onGrid_abs h.1, by rw [abs_abs]; exact h.2⟩

/-- `f32::abs` -/
def abs : F32 → F32
  | nan => nan
  | inf _ => inf false
  | fin v h => fin |v| (abs_aux h)

def add : F32 → F32 → F32
  | nan, _ => nan
  | _, nan => nan
  | inf s, inf t => if s = t then inf s else nan
  | inf s, fin _ _ => inf s
  | fin _ _, inf t => inf t
  | fin a _, fin b _ => rnd (a + b)

def mul : F32 → F32 → F32
  | nan, _ => nan
  | _, nan => nan
  | inf s, inf t => inf (s != t)
  | inf s, fin b _ => if b = 0 then nan else inf (s != decide (b < 0))
  | fin a _, inf t => if a = 0 then nan else inf (t != decide (a < 0))
  | fin a _, fin b _ => rnd (a * b)

def div : F32 → F32 → F32
  | nan, _ => nan
  | _, nan => nan
  | inf _, inf _ => nan
  | inf s, fin b _ => inf (s != decide (b < 0))
  | fin _ _, inf _ => rnd 0
  | fin a _, fin b _ =>
      if b = 0 then (if a = 0 then nan else inf (decide (a < 0))) else rnd (a / b)

instance : Neg F32 := ⟨neg⟩
instance : Add F32 := ⟨add⟩
instance : Sub F32 := ⟨fun a b => add a (neg b)⟩
instance : Mul F32 := ⟨mul⟩
instance : Div F32 := ⟨div⟩

/-- `f32::max`: a NaN argument is ignored. -/
def max (a b : F32) : F32 := if a.isNaN then b else if b.isNaN then a else if a < b then b else a
/-- `f32::min`: a NaN argument is ignored. -/
def min (a b : F32) : F32 := if a.isNaN then b else if b.isNaN then a else if b < a then b else a

/-- `f32::clamp` for bounds already known to satisfy `lo <= hi` (otherwise Rust panics;
see `clampP` for the panicking version). NaN passes through. -/
def clamp (x lo hi : F32) : F32 :=
  let y := if x < lo then lo else x
  if hi < y then hi else y

/-- Correctly rounded square root of a non-negative rational grid value, through an
integer square root with a sticky bit (the scaling 2^400 leaves more than 100 guard
bits below every binary32 rounding boundary of the root). -/
def sqrtQ (v : ℚ) : ℚ :=
  let n : ℕ := ⌊v * ((2 ^ 400 : ℕ) : ℚ)⌋.toNat
  let s := n.sqrt
  ((2 * s + (if s * s = n then 0 else 1) : ℕ) : ℚ) / ((2 ^ 201 : ℕ) : ℚ)

/-- `f32::sqrt` -/
def sqrt : F32 → F32
  | nan => nan
  | inf true => nan
  | inf false => inf false
  | fin v _ => if v < 0 then nan else rnd (sqrtQ v)

/-- `f32::floor` -/
def floor : F32 → F32
  | fin v _ => rnd ((⌊v⌋ : ℤ) : ℚ)
  | x => x

/-- `f32::ceil` -/
def ceil : F32 → F32
  | fin v _ => rnd ((⌈v⌉ : ℤ) : ℚ)
  | x => x

/-- Round half away from zero. -/
def roundAway (v : ℚ) : ℤ := if 0 ≤ v then ⌊v + 1 / 2⌋ else -⌊-v + 1 / 2⌋

/-- `f32::round` (half away from zero) -/
def round : F32 → F32
  | fin v _ => rnd ((roundAway v : ℤ) : ℚ)
  | x => x

def usizeMax : ℕ := 2 ^ 64 - 1

/-- `x as usize` (64-bit): truncates toward zero, saturates, NaN gives 0. -/
def toUsize : F32 → ℕ
  | nan => 0
  | inf true => 0
  | inf false => usizeMax
  | fin v _ => Nat.min ⌊v⌋.toNat usizeMax

/-- Truncation of a rational toward zero. -/
def truncQ (v : ℚ) : ℤ := if 0 ≤ v then ⌊v⌋ else ⌈v⌉

/-- `x as i32`: truncates toward zero, saturates, NaN gives 0. -/
def toI32 : F32 → ℤ
  | nan => 0
  | inf true => -2 ^ 31
  | inf false => 2 ^ 31 - 1
  | fin v _ => Max.max (-2 ^ 31) (Min.min (truncQ v) (2 ^ 31 - 1))

/-- `iter().sum::<f32>()`: left fold from zero (the sign of the initial zero is not modelled). -/
def sum (l : List F32) : F32 := l.foldl (· + ·) 0

/-- `fold(init, f32::max)` -/
def foldMax (init : F32) (l : List F32) : F32 := l.foldl F32.max init

/-- `a.partial_cmp(&b)` -/
def partialCmp (a b : F32) : Option Ordering :=
  if a.isNaN || b.isNaN then none
  else if a < b then some .lt else if b < a then some .gt else some .eq

/-! ### Order -/

/-- Order embedding of the non-NaN values into the extended rationals. -/
def toW : F32 → WithBot (WithTop ℚ)
  | nan => ⊥
  | inf true => ⊥
  | inf false => ((⊤ : WithTop ℚ) : WithBot (WithTop ℚ))
  | fin v _ => ((v : WithTop ℚ) : WithBot (WithTop ℚ))

theorem coe_lt_top' (v : ℚ) : ((v : WithTop ℚ) : WithBot (WithTop ℚ)) < ⊤ :=
  WithBot.coe_lt_coe.2 (WithTop.coe_lt_top v)

@[simp] theorem isNaN_nan : isNaN nan = true := rfl
@[simp] theorem isNaN_inf (s) : isNaN (inf s) = false := rfl
@[simp] theorem isNaN_fin (v h) : isNaN (fin v h) = false := rfl
theorem isNaN_iff {a : F32} : a.isNaN = true ↔ a = nan := by cases a <;> simp
theorem isNaN_false_iff {a : F32} : a.isNaN = false ↔ a ≠ nan := by cases a <;> simp

theorem le_def (a b : F32) : a ≤ b ↔ a ≠ nan ∧ b ≠ nan ∧ a.toW ≤ b.toW := by
  show ble a b = true ↔ _
  rcases a with _ | (_ | _) | _ <;> rcases b with _ | (_ | _) | _ <;> simp [ble, toW]

theorem lt_def (a b : F32) : a < b ↔ a ≠ nan ∧ b ≠ nan ∧ a.toW < b.toW := by
  show blt a b = true ↔ _
  rcases a with _ | (_ | _) | _ <;> rcases b with _ | (_ | _) | _ <;> simp [blt, toW, WithBot.bot_lt_coe, coe_lt_top']

theorem toW_inj {a b : F32} (ha : a ≠ nan) (hb : b ≠ nan) (h : a.toW = b.toW) : a = b := by
  rcases a with _ | (_ | _) | _ <;> rcases b with _ | (_ | _) | _ <;> simp_all [toW]

@[simp] theorem fin_le_fin {a b : ℚ} {ha hb} : fin a ha ≤ fin b hb ↔ a ≤ b := by
  simp [le_def, toW]
@[simp] theorem fin_lt_fin {a b : ℚ} {ha hb} : fin a ha < fin b hb ↔ a < b := by
  simp [lt_def, toW]
@[simp] theorem not_nan_le (a : F32) : ¬ nan ≤ a := by simp [le_def]
@[simp] theorem not_le_nan (a : F32) : ¬ a ≤ nan := by simp [le_def]
@[simp] theorem not_nan_lt (a : F32) : ¬ nan < a := by simp [lt_def]
@[simp] theorem not_lt_nan (a : F32) : ¬ a < nan := by simp [lt_def]
@[simp] theorem fin_le_pinf {a : ℚ} {ha} : fin a ha ≤ inf false := by simp [le_def, toW]
@[simp] theorem not_pinf_le_fin {a : ℚ} {ha} : ¬ inf false ≤ fin a ha := by simp [le_def, toW]
@[simp] theorem not_fin_le_ninf {a : ℚ} {ha} : ¬ fin a ha ≤ inf true := by simp [le_def, toW]
@[simp] theorem ninf_le_fin {a : ℚ} {ha} : inf true ≤ fin a ha := by simp [le_def, toW]
@[simp] theorem fin_lt_pinf {a : ℚ} {ha} : fin a ha < inf false := by simp [lt_def, toW, coe_lt_top']
@[simp] theorem not_pinf_lt {a : F32} : ¬ inf false < a := by
  rcases a with _ | (_ | _) | _ <;> simp [lt_def, toW]
@[simp] theorem not_lt_ninf {a : F32} : ¬ a < inf true := by
  rcases a with _ | (_ | _) | _ <;> simp [lt_def, toW]
@[simp] theorem ninf_lt_fin {a : ℚ} {ha} : inf true < fin a ha := by
  simp [lt_def, toW, WithBot.bot_lt_coe]

@[simp] theorem inf_le_inf {s t : Bool} : inf s ≤ inf t ↔ (s = true ∨ t = false) := by
  rcases s with _ | _ <;> rcases t with _ | _ <;> decide
@[simp] theorem inf_lt_inf {s t : Bool} : inf s < inf t ↔ (s = true ∧ t = false) := by
  rcases s with _ | _ <;> rcases t with _ | _ <;> decide

theorem le_refl {a : F32} (h : a ≠ nan) : a ≤ a := by rw [le_def]; exact ⟨h, h, _root_.le_refl _⟩
theorem le_trans {a b c : F32} (h1 : a ≤ b) (h2 : b ≤ c) : a ≤ c := by
  rw [le_def] at *; exact ⟨h1.1, h2.2.1, h1.2.2.trans h2.2.2⟩
theorem lt_of_lt_of_le {a b c : F32} (h1 : a < b) (h2 : b ≤ c) : a < c := by
  rw [le_def, lt_def] at *; exact ⟨h1.1, h2.2.1, _root_.lt_of_lt_of_le h1.2.2 h2.2.2⟩
theorem lt_of_le_of_lt {a b c : F32} (h1 : a ≤ b) (h2 : b < c) : a < c := by
  rw [le_def, lt_def] at *; exact ⟨h1.1, h2.2.1, _root_.lt_of_le_of_lt h1.2.2 h2.2.2⟩
theorem lt_trans {a b c : F32} (h1 : a < b) (h2 : b < c) : a < c := by
  rw [lt_def] at *; exact ⟨h1.1, h2.2.1, _root_.lt_trans h1.2.2 h2.2.2⟩
theorem le_of_lt {a b : F32} (h : a < b) : a ≤ b := by
  rw [le_def, lt_def] at *; exact ⟨h.1, h.2.1, h.2.2.le⟩
theorem lt_irrefl (a : F32) : ¬ a < a := by rw [lt_def]; simp
theorem not_lt_of_le {a b : F32} (h : a ≤ b) : ¬ b < a := by
  rw [le_def, lt_def] at *; intro h'; exact absurd h.2.2 (not_le.2 h'.2.2)
theorem not_le_of_lt {a b : F32} (h : a < b) : ¬ b ≤ a := fun h' => not_lt_of_le h' h
theorem le_antisymm {a b : F32} (h1 : a ≤ b) (h2 : b ≤ a) : a = b := by
  rw [le_def] at *; exact toW_inj h1.1 h1.2.1 (_root_.le_antisymm h1.2.2 h2.2.2)
theorem le_of_not_lt {a b : F32} (ha : a ≠ nan) (hb : b ≠ nan) (h : ¬ b < a) : a ≤ b := by
  rw [le_def]; rw [lt_def] at h; refine ⟨ha, hb, ?_⟩
  by_contra hc; exact h ⟨hb, ha, not_le.1 hc⟩
theorem lt_of_not_le {a b : F32} (ha : a ≠ nan) (hb : b ≠ nan) (h : ¬ b ≤ a) : a < b := by
  rw [lt_def]; rw [le_def] at h; refine ⟨ha, hb, ?_⟩
  by_contra hc; exact h ⟨hb, ha, not_lt.1 hc⟩
theorem le_total {a b : F32} (ha : a ≠ nan) (hb : b ≠ nan) : a ≤ b ∨ b ≤ a := by
  by_cases h : b < a
  · exact .inr (le_of_lt h)
  · exact .inl (le_of_not_lt ha hb h)
theorem ne_nan_left {a b : F32} (h : a ≤ b) : a ≠ nan := ((le_def a b).1 h).1
theorem ne_nan_right {a b : F32} (h : a ≤ b) : b ≠ nan := ((le_def a b).1 h).2.1
theorem ne_nan_left' {a b : F32} (h : a < b) : a ≠ nan := ((lt_def a b).1 h).1
theorem ne_nan_right' {a b : F32} (h : a < b) : b ≠ nan := ((lt_def a b).1 h).2.1

/-! ### Rounding -/

@[simp] theorem rnd_ne_nan (q : ℚ) : rnd q ≠ nan := by unfold rnd; split_ifs <;> simp

theorem rnd_of_lt {q : ℚ} (h : |rndQ q| < pow2 128) : rnd q = fin (rndQ q) ⟨onGrid_rndQ q, h⟩ := by
  have := abs_lt.1 h
  unfold rnd
  rw [dif_neg (not_le.2 this.2), dif_neg (not_le.2 this.1)]

theorem rnd_val {v : ℚ} (h : OnGrid v ∧ |v| < pow2 128) : rnd v = fin v h := by
  have h1 : rndQ v = v := h.1
  have : |rndQ v| < pow2 128 := by rw [h1]; exact h.2
  rw [rnd_of_lt this]; congr 1

theorem toW_rnd_mono {x y : ℚ} (h : x ≤ y) : (rnd x).toW ≤ (rnd y).toW := by
  have hm := rndQ_mono h
  have hp := pow2_pos 128
  unfold rnd
  split_ifs <;> simp only [toW, WithBot.coe_le_coe, WithTop.coe_le_coe, _root_.le_refl, bot_le, le_top, le_bot_iff] <;>
    first | exact hm | (exfalso; linarith)

theorem rnd_mono {x y : ℚ} (h : x ≤ y) : rnd x ≤ rnd y := by
  rw [le_def]; exact ⟨rnd_ne_nan _, rnd_ne_nan _, toW_rnd_mono h⟩

theorem rnd_le_fin {x v : ℚ} {hv} (h : x ≤ v) : rnd x ≤ fin v hv := by
  rw [← rnd_val hv]; exact rnd_mono h

theorem fin_le_rnd {x v : ℚ} {hv} (h : v ≤ x) : fin v hv ≤ rnd x := by
  rw [← rnd_val hv]; exact rnd_mono h

/-- A rational between two finite values rounds to a finite value between them. -/
theorem rnd_between {x a b : ℚ} (ha : OnGrid a ∧ |a| < pow2 128) (hb : OnGrid b ∧ |b| < pow2 128)
    (h1 : a ≤ x) (h2 : x ≤ b) : ∃ h, rnd x = fin (rndQ x) h ∧ a ≤ rndQ x ∧ rndQ x ≤ b := by
  have l := le_rndQ_of_onGrid ha.1 h1
  have u := rndQ_le_of_onGrid hb.1 h2
  have : |rndQ x| < pow2 128 := by
    have := abs_lt.1 ha.2; have := abs_lt.1 hb.2
    rw [abs_lt]; constructor <;> linarith
  exact ⟨_, rnd_of_lt this, l, u⟩

theorem grid_zero : OnGrid (0 : ℚ) ∧ |(0 : ℚ)| < pow2 128 :=
  ⟨rndQ_zero, by rw [abs_zero]; exact pow2_pos _⟩
theorem grid_nat {n : ℕ} (h : n ≤ 2 ^ 24) : OnGrid (n : ℚ) ∧ |(n : ℚ)| < pow2 128 := by
  refine ⟨onGrid_nat h, ?_⟩
  rw [abs_of_nonneg (by positivity), pow2_eq]
  have : (n : ℚ) ≤ 2 ^ 24 := by exact_mod_cast h
  exact _root_.lt_of_le_of_lt this (by norm_num)
theorem grid_one : OnGrid (1 : ℚ) ∧ |(1 : ℚ)| < pow2 128 := by simpa using grid_nat (n := 1) (by norm_num)

theorem zero_def : (0 : F32) = fin 0 grid_zero := by
  show rnd ((0 : ℕ) : ℚ) = _
  rw [Nat.cast_zero, rnd_val grid_zero]
theorem one_def : (1 : F32) = fin 1 grid_one := by
  show rnd ((1 : ℕ) : ℚ) = _
  rw [Nat.cast_one, rnd_val grid_one]
theorem ofNat_lit (n : ℕ) : (OfNat.ofNat n : F32) = rnd (n : ℚ) := rfl
theorem rnd_zero : rnd 0 = (0 : F32) := by rw [zero_def, rnd_val grid_zero]
theorem rnd_one : rnd 1 = (1 : F32) := by rw [one_def, rnd_val grid_one]

@[simp] theorem zero_ne_nan : (0 : F32) ≠ nan := by rw [zero_def]; simp
@[simp] theorem one_ne_nan : (1 : F32) ≠ nan := by rw [one_def]; simp
theorem zero_le_one : (0 : F32) ≤ 1 := by rw [zero_def, one_def]; simp
theorem zero_lt_one : (0 : F32) < 1 := by rw [zero_def, one_def]; simp

theorem rnd_nonneg {q : ℚ} (h : 0 ≤ q) : 0 ≤ rnd q := by rw [← rnd_zero]; exact rnd_mono h
theorem rnd_nonpos {q : ℚ} (h : q ≤ 0) : rnd q ≤ 0 := by rw [← rnd_zero]; exact rnd_mono h

theorem le_fin_val {a : F32} (h : a.isFinite) : ∃ v hv, a = fin v hv := by
  rcases a with _ | _ | ⟨v, hv⟩ <;> simp_all [isFinite]

/-- non-negative values are `+∞` or finite with non-negative value -/
theorem nonneg_cases {a : F32} (h : 0 ≤ a) : a = inf false ∨ ∃ v hv, a = fin v hv ∧ 0 ≤ v := by
  rw [zero_def] at h
  rcases a with _ | (_ | _) | ⟨v, hv⟩ <;> simp_all

theorem between_cases {a : F32} {lo hi : ℚ} {hlo hhi} (h1 : fin lo hlo ≤ a) (h2 : a ≤ fin hi hhi) :
    ∃ v hv, a = fin v hv ∧ lo ≤ v ∧ v ≤ hi := by
  rcases a with _ | (_ | _) | ⟨v, hv⟩ <;> simp_all

end F32
end Verif
