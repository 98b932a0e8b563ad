/-
Property theorems C128: turning the volume up by a power of two moves no onset of the energy-based detectors
(src/features/onset/{energy_flux,hfc,hpss}.rs).
-/
import Verif.F32.SqrtScale
import Verif.Props.FluxLevel
import Verif.Props.HopScale
import Verif.Props.Louder

namespace Verif.Props
open Verif Verif.Onset Verif.F32

/-! ### Specification -/

/-- `2^k`, a gain of about `6 k` dB -/
def gainOf2 (k : ℕ) : F32 := F32.ofNat (2 ^ k)

/-- a number of ordinary size: zero, or between `2^-40` (about -240 dB) and `2^20` in magnitude -/
def OrdinaryLevel (v : F32) : Prop := v = 0 ∨ (rnd (pow2 (-40)) ≤ v.abs ∧ v.abs ≤ rnd (pow2 20))

/-! ### Scaled non-negative numbers -/

/-- `y = 2^k x`, both non-negative; `x` is zero or at least `2^lo`, and `y` at most `2^hi` -/
def Vol (k : ℕ) (lo hi : ℤ) (x y : F32) : Prop :=
  ∃ v hv hw, x = fin v hv ∧ y = fin (pow2 k * v) hw ∧ 0 ≤ v ∧ (v = 0 ∨ pow2 lo ≤ v) ∧ pow2 k * v ≤ pow2 hi

theorem pow2_le' {a b : ℤ} (h : a ≤ b) : pow2 a ≤ pow2 b := by
  rcases eq_or_lt_of_le h with rfl | h
  · exact _root_.le_refl _
  · exact (pow2_lt h).le

theorem one_le_pow2 (k : ℕ) : (1 : ℚ) ≤ pow2 k := by
  rw [pow2_nat]; exact one_le_pow₀ (by norm_num)

theorem pow2_grid {e : ℤ} (h1 : -149 ≤ e) (h2 : e ≤ 127) : OnGrid (pow2 e) ∧ |pow2 e| < pow2 128 :=
  ⟨onGrid_pow2 h1, by rw [abs_of_pos (pow2_pos _)]; exact pow2_lt (by omega)⟩

theorem Vol.gain {k lo hi x y} (h : Vol k lo hi x y) : GainOf (pow2 k) x y := by
  obtain ⟨v, hv, hw, rfl, rfl, -⟩ := h
  exact ⟨v, hv, hw, rfl, rfl⟩

theorem vol_zero (k : ℕ) (lo hi : ℤ) : Vol k lo hi 0 0 :=
  ⟨0, grid_zero, by rw [mul_zero]; exact grid_zero, zero_def, by rw [zero_def]; congr 1; rw [mul_zero], _root_.le_refl _, .inl rfl,
    by rw [mul_zero]; exact (pow2_pos _).le⟩

/-- rounding a scaled number -/
theorem vol_rnd {k : ℕ} {lo hi : ℤ} {q : ℚ} (h0 : 0 ≤ q) (hlo : q = 0 ∨ pow2 lo ≤ q) (hhi : pow2 k * q ≤ pow2 hi)
    (h1 : -149 ≤ lo) (h1' : lo ≤ 127) (h2 : -149 ≤ hi) (h3 : hi ≤ 127) (hs : rndQ (pow2 k * q) = pow2 k * rndQ q) :
    Vol k lo hi (rnd q) (rnd (pow2 k * q)) := by
  have hk := pow2_pos (k : ℤ)
  have hq0 : 0 ≤ pow2 k * q := _root_.mul_nonneg hk.le h0
  obtain ⟨hw, e', u'⟩ := rnd_finite_of_abs_le (pow2_grid h2 h3) (q := pow2 k * q) (by rw [abs_of_nonneg hq0]; exact hhi)
  have hle : q ≤ pow2 k * q := le_mul_of_one_le_left h0 (one_le_pow2 k)
  obtain ⟨hv, e, u⟩ := rnd_finite_of_abs_le (pow2_grid h2 h3) (q := q) (by rw [abs_of_nonneg h0]; exact hle.trans hhi)
  have hw' := hw
  rw [hs] at hw'
  refine ⟨rndQ q, hv, hw', e, ?_, rndQ_nonneg h0, ?_, ?_⟩
  · rw [e']; congr 1
  · rcases hlo with rfl | hl
    · exact .inl rndQ_zero
    · right
      have := rndQ_mono hl
      rwa [show rndQ (pow2 lo) = pow2 lo from onGrid_pow2 h1] at this
  · rw [← hs]; exact (le_abs_self _).trans u'

theorem Vol.mul {k l : ℕ} {lo hi lo' hi' : ℤ} {x y x' y' : F32} (h : Vol k lo hi x y) (h' : Vol l lo' hi' x' y')
    (h1 : -126 ≤ lo + lo') (h1' : lo + lo' ≤ 127) (h2 : -149 ≤ hi + hi') (h3 : hi + hi' ≤ 127) :
    Vol (k + l) (lo + lo') (hi + hi') (x * x') (y * y') := by
  obtain ⟨v, hv, hw, rfl, rfl, v0, vl, vh⟩ := h
  obtain ⟨v', hv', hw', rfl, rfl, v0', vl', vh'⟩ := h'
  rw [mul_fin, mul_fin]
  have e : pow2 k * v * (pow2 l * v') = pow2 ((k + l : ℕ) : ℤ) * (v * v') := by push_cast; rw [pow2_add]; ring
  rw [e]
  have hlo : v * v' = 0 ∨ pow2 (lo + lo') ≤ v * v' := by
    rcases vl with rfl | vl
    · left; ring
    rcases vl' with rfl | vl'
    · left; ring
    right; rw [pow2_add]; exact mul_le_mul vl vl' (pow2_pos _).le v0
  refine vol_rnd (_root_.mul_nonneg v0 v0') hlo ?_ (by omega) h1' h2 h3 ?_
  · rw [← e, pow2_add]
    exact mul_le_mul vh vh' (_root_.mul_nonneg (pow2_pos _).le v0') (pow2_pos _).le
  · rcases hlo with hz | hl
    · rw [hz, mul_zero, rndQ_zero, mul_zero]
    · exact rndQ_scale (by rw [abs_of_nonneg (_root_.mul_nonneg v0 v0')]; exact (pow2_le' h1).trans hl) (by positivity)

/-- products with a fixed number -/
theorem Vol.mul_const {k : ℕ} {lo hi lo' hi' : ℤ} {x y : F32} {c : ℚ} {hc} (h : Vol k lo hi x y) (c0 : 0 ≤ c)
    (cl : c = 0 ∨ pow2 lo' ≤ c) (ch : c ≤ pow2 hi')
    (h1 : -126 ≤ lo' + lo) (h1' : lo' + lo ≤ 127) (h2 : -149 ≤ hi' + hi) (h3 : hi' + hi ≤ 127) :
    Vol k (lo' + lo) (hi' + hi) (fin c hc * x) (fin c hc * y) := by
  have hh : Vol 0 lo' hi' (fin c hc) (fin c hc) := by
    have e : pow2 ((0 : ℕ) : ℤ) * c = c := by rw [pow2_nat]; ring
    exact ⟨c, hc, by rw [e]; exact hc, rfl, by congr 1; exact e.symm, c0, cl, by rw [e]; exact ch⟩
  have := hh.mul h h1 h1' h2 h3
  rwa [Nat.zero_add] at this

theorem Vol.sum {k : ℕ} {lo hi : ℤ} {l l' : List F32} (h : List.Forall₂ (Vol k lo hi) l l') (hn : l.length ≤ 2 ^ 24)
    (h1 : -149 ≤ lo) (h1' : lo ≤ 127) (h2 : -149 ≤ hi) (h3 : hi + 24 ≤ 127) :
    Vol k lo (hi + 24) (F32.sum l) (F32.sum l') := by
  have hk := pow2_pos (k : ℤ)
  suffices key : ∀ (n : ℕ) (a a' : F32), n + l.length ≤ 2 ^ 24 →
      (∃ v hv hw, a = fin v hv ∧ a' = fin (pow2 k * v) hw ∧ 0 ≤ v ∧ (v = 0 ∨ pow2 lo ≤ v) ∧ pow2 k * v ≤ n * pow2 hi) →
      ∃ v hv hw, l.foldl (· + ·) a = fin v hv ∧ l'.foldl (· + ·) a' = fin (pow2 k * v) hw ∧ 0 ≤ v ∧ (v = 0 ∨ pow2 lo ≤ v) ∧
        pow2 k * v ≤ (n + l.length : ℕ) * pow2 hi by
    obtain ⟨v, hv, hw, e, e', v0, vl, vh⟩ := key 0 0 0 (by omega) (by
      obtain ⟨v, hv, hw, e, e', v0, vl, -⟩ := vol_zero k lo hi
      have hv0 : v = 0 := by rw [zero_def] at e; injection e with e; exact e.symm
      exact ⟨v, hv, hw, e, e', v0, vl, by rw [hv0]; simp⟩)
    refine ⟨v, hv, hw, e, e', v0, vl, vh.trans ?_⟩
    rw [Nat.zero_add, _root_.add_comm hi, pow2_add]
    refine mul_le_mul_of_nonneg_right ?_ (pow2_pos _).le
    rw [show (24 : ℤ) = ((24 : ℕ) : ℤ) from rfl, pow2_nat]
    exact_mod_cast hn
  induction h with
  | nil =>
    rintro n a a' - hh
    simpa using hh
  | @cons x y l l' hx _ ih =>
    rintro n a a' hn' ⟨v, hv, hw, rfl, rfl, v0, vl, vh⟩
    obtain ⟨w, hv', hw', rfl, rfl, w0, wl, wh⟩ := hx
    rw [List.foldl_cons, List.foldl_cons, add_fin, add_fin]
    rw [List.length_cons] at hn hn'
    have e1 : pow2 k * v + pow2 k * w = pow2 k * (v + w) := by ring
    have hb : pow2 k * (v + w) ≤ ((n + 1 : ℕ) : ℚ) * pow2 hi := by push_cast; rw [← e1]; linarith
    have hg : OnGrid (((n + 1 : ℕ) : ℚ) * pow2 hi) ∧ |((n + 1 : ℕ) : ℚ) * pow2 hi| < pow2 128 := by
      refine ⟨?_, ?_⟩
      · have := onGrid_of_scaled (m := ((n + 1 : ℕ) : ℤ)) (e := hi) (by rw [Nat.abs_cast]; exact_mod_cast (by omega)) h2
        exact_mod_cast this
      · rw [abs_of_nonneg (_root_.mul_nonneg (by positivity) (pow2_pos _).le)]
        have : ((n + 1 : ℕ) : ℚ) * pow2 hi ≤ pow2 24 * pow2 hi := by
          refine mul_le_mul_of_nonneg_right ?_ (pow2_pos _).le
          rw [show (24 : ℤ) = ((24 : ℕ) : ℤ) from rfl, pow2_nat]
          exact_mod_cast (by omega)
        rw [← pow2_add] at this
        exact _root_.lt_of_le_of_lt this (pow2_lt (by omega))
    have q0 : 0 ≤ v + w := by linarith
    have p0 : 0 ≤ pow2 k * (v + w) := _root_.mul_nonneg hk.le q0
    obtain ⟨g', f', u'⟩ := rnd_finite_of_abs_le hg (q := pow2 k * (v + w)) (by rw [abs_of_nonneg p0]; exact hb)
    obtain ⟨g, f, u⟩ := rnd_finite_of_abs_le hg (q := v + w) (by
      rw [abs_of_nonneg q0]; exact (le_mul_of_one_le_left q0 (one_le_pow2 k)).trans hb)
    have hs : rndQ (pow2 k * (v + w)) = pow2 k * rndQ (v + w) := rndQ_scale_add hv.1 hv'.1 (by positivity)
    have g'' := g'
    rw [hs] at g''
    have res := ih (by omega) (n + 1) (rnd (v + w)) (rnd (pow2 k * v + pow2 k * w)) (by omega)
      ⟨rndQ (v + w), g, g'', f, by rw [e1, f']; congr 1, rndQ_nonneg q0, by
        have : v + w = 0 ∨ pow2 lo ≤ v + w := by
          rcases vl with rfl | vl
          · rcases wl with rfl | wl
            · left; ring
            · right; linarith
          · right; linarith
        rcases this with hz | hl
        · left; rw [hz]; exact rndQ_zero
        · right
          have := rndQ_mono hl
          rwa [show rndQ (pow2 lo) = pow2 lo from onGrid_pow2 h1] at this, by
        rw [← hs]; exact (le_abs_self _).trans u'⟩
    rw [List.length_cons, show n + (l.length + 1) = n + 1 + l.length by ring]
    exact res

theorem Vol.div_count {k : ℕ} {lo hi : ℤ} {x y : F32} (h : Vol k lo hi x y) {n : ℕ} (hn : 0 < n) (hN : n ≤ 2 ^ 24)
    (h1 : -126 ≤ lo - 24) (h1' : lo ≤ 127) (h2 : -149 ≤ hi) (h3 : hi ≤ 127) :
    Vol k (lo - 24) hi (x / F32.ofNat n) (y / F32.ofNat n) := by
  obtain ⟨v, hv, hw, rfl, rfl, v0, vl, vh⟩ := h
  have hk := pow2_pos (k : ℤ)
  have hq : (0 : ℚ) < n := by exact_mod_cast hn
  have hq1 : (1 : ℚ) ≤ n := by exact_mod_cast hn
  rw [ofNat_exact hN, div_fin hq.ne', div_fin hq.ne', mul_div_assoc]
  have d0 : 0 ≤ v / n := _root_.div_nonneg v0 hq.le
  have hlo : v / n = 0 ∨ pow2 (lo - 24) ≤ v / n := by
    rcases vl with rfl | vl
    · left; rw [zero_div]
    · right
      rw [le_div_iff₀ hq]
      have : pow2 (lo - 24) * n ≤ pow2 (lo - 24) * pow2 24 := by
        refine mul_le_mul_of_nonneg_left ?_ (pow2_pos _).le
        rw [show (24 : ℤ) = ((24 : ℕ) : ℤ) from rfl, pow2_nat]
        exact_mod_cast hN
      rw [← pow2_add, show lo - 24 + 24 = lo by ring] at this
      exact this.trans vl
  refine vol_rnd d0 hlo ?_ (by omega) (by omega) h2 h3 ?_
  · rw [← mul_div_assoc]
    exact (div_le_self (_root_.mul_nonneg hk.le v0) hq1).trans vh
  · rcases hlo with hz | hl
    · rw [hz, mul_zero, rndQ_zero, mul_zero]
    · exact rndQ_scale (by rw [abs_of_nonneg d0]; exact (pow2_le' h1).trans hl) (by positivity)

theorem sqrtQ_nonneg (u : ℚ) : 0 ≤ sqrtQ u := by unfold sqrtQ; positivity

theorem Vol.sqrt {k : ℕ} {lo hi : ℤ} {x y : F32} (h : Vol (k + k) (lo + lo) (hi + hi) x y) (h1 : -149 ≤ lo)
    (h2 : -149 ≤ hi) (h3 : hi ≤ 127) : Vol k lo hi (F32.sqrt x) (F32.sqrt y) := by
  obtain ⟨v, hv, hw, rfl, rfl, v0, vl, vh⟩ := h
  rcases eq_or_lt_of_le v0 with e | vp
  · have z : ∀ (w : ℚ) hw, w = 0 → F32.sqrt (fin w hw) = 0 := by
      rintro w hw rfl; rw [← zero_def]; exact F32.sqrt_zero
    rw [z v hv e.symm, z _ hw (by rw [← e, mul_zero])]
    exact vol_zero _ _ _
  have hs : rndQ (sqrtQ (pow2 ((k + k : ℕ) : ℤ) * v)) = pow2 k * rndQ (sqrtQ v) := by
    rw [show ((k + k : ℕ) : ℤ) = 2 * (k : ℤ) by push_cast; ring]
    exact sqrtQ_scale hv.1 vp k
  rw [sqrt_fin v0, sqrt_fin (_root_.mul_nonneg (pow2_pos _).le v0)]
  have hb : sqrtQ (pow2 ((k + k : ℕ) : ℤ) * v) ≤ pow2 hi :=
    sqrtQ_le (onGrid_pow2 h2) (pow2_pos _).le (by rw [← pow2_add]; exact vh)
  have hle : v ≤ pow2 hi * pow2 hi := by
    rw [← pow2_add]
    exact (le_mul_of_one_le_left v0 (one_le_pow2 (k + k))).trans vh
  have hb0 : sqrtQ v ≤ pow2 hi := sqrtQ_le (onGrid_pow2 h2) (pow2_pos _).le hle
  obtain ⟨g', f', u'⟩ := rnd_finite_of_abs_le (pow2_grid h2 h3) (q := sqrtQ (pow2 ((k + k : ℕ) : ℤ) * v)) (by
    rw [abs_of_nonneg (sqrtQ_nonneg _)]; exact hb)
  obtain ⟨g, f, u⟩ := rnd_finite_of_abs_le (pow2_grid h2 h3) (q := sqrtQ v) (by
    rw [abs_of_nonneg (sqrtQ_nonneg _)]; exact hb0)
  have g'' := g'
  rw [hs] at g''
  refine ⟨rndQ (sqrtQ v), g, g'', f, by rw [f']; congr 1, rndQ_nonneg (sqrtQ_nonneg v), .inr ?_, ?_⟩
  · have hl : pow2 lo ≤ sqrtQ v := le_sqrtQ (onGrid_pow2 h1) (pow2_pos _).le (by
      rw [← pow2_add]; exact vl.resolve_left vp.ne')
    have := rndQ_mono hl
    rwa [show rndQ (pow2 lo) = pow2 lo from onGrid_pow2 h1] at this
  · rw [← hs]; exact (le_abs_self _).trans u'

theorem grid_lower {v : ℚ} (hv : OnGrid v) (h0 : 0 ≤ v) : v = 0 ∨ pow2 (-149) ≤ v := by
  rcases eq_or_lt_of_le h0 with h | h
  · exact .inl h.symm
  · right
    have := grid_sub_ge (show OnGrid 0 from rndQ_zero) hv h
    rwa [sub_zero] at this

theorem Vol.rise {k : ℕ} {lo hi lo' : ℤ} {x y x' y' : F32} (h : Vol k lo hi x x') (h' : Vol k lo' hi y y')
    (h2 : -149 ≤ hi) (h3 : hi ≤ 127) : Vol k (-149) hi (F32.max (x - y) 0) (F32.max (x' - y') 0) := by
  obtain ⟨v, hv, hw, rfl, rfl, v0, -, vh⟩ := h
  obtain ⟨w, hv', hw', rfl, rfl, w0, -, wh⟩ := h'
  have hk := pow2_pos (k : ℤ)
  have hk1 := one_le_pow2 k
  rw [sub_fin, sub_fin]
  have e1 : pow2 k * v - pow2 k * w = pow2 k * (v - w) := by ring
  have hs : rndQ (pow2 k * (v - w)) = pow2 k * rndQ (v - w) := by
    rw [sub_eq_add_neg]; exact rndQ_scale_add hv.1 (onGrid_neg hv'.1) (by positivity)
  have p0 := _root_.mul_nonneg hk.le v0
  have p0' := _root_.mul_nonneg hk.le w0
  have a1 : |pow2 k * (v - w)| ≤ pow2 hi := by rw [← e1, abs_le]; constructor <;> linarith
  have a2 : |v - w| ≤ pow2 hi := by
    rw [_root_.abs_mul, abs_of_pos hk] at a1
    exact (le_mul_of_one_le_left (_root_.abs_nonneg _) hk1).trans a1
  obtain ⟨g', f', u'⟩ := rnd_finite_of_abs_le (pow2_grid h2 h3) a1
  obtain ⟨g, f, u⟩ := rnd_finite_of_abs_le (pow2_grid h2 h3) a2
  rw [e1, f, f']
  have g'' := g'
  rw [hs] at g''
  have hm : ∀ (q : ℚ) hq, F32.max (fin q hq) 0 = if q < 0 then 0 else fin q hq := by
    intro q hq
    rw [zero_def]
    unfold F32.max
    simp only [F32.isNaN, Bool.false_eq_true, if_false, fin_lt_fin]
  rw [hm, hm]
  have hiff : rndQ (pow2 k * (v - w)) < 0 ↔ rndQ (v - w) < 0 := by
    rw [hs]; constructor <;> intro h
    · by_contra h'; exact absurd (_root_.mul_nonneg hk.le (not_lt.1 h')) (not_le.2 h)
    · exact mul_neg_of_pos_of_neg hk h
  by_cases hneg : rndQ (v - w) < 0
  · rw [if_pos hneg, if_pos (hiff.2 hneg)]; exact vol_zero _ _ _
  · rw [if_neg hneg, if_neg (fun h => hneg (hiff.1 h))]
    refine ⟨_, g, g'', rfl, by congr 1, not_lt.1 hneg, grid_lower g.1 (not_lt.1 hneg), ?_⟩
    rw [← hs]; exact (le_abs_self _).trans u'

theorem Vol.max {k : ℕ} {lo hi : ℤ} {a a' b b' : F32} (h1 : Vol k lo hi a a') (h2 : Vol k lo hi b b') :
    Vol k lo hi (F32.max a b) (F32.max a' b') := by
  have hc := pow2_pos (k : ℤ)
  have k1 := h1
  have k2 := h2
  obtain ⟨v, hv, hw, rfl, rfl, -⟩ := h1
  obtain ⟨w, hv', hw', rfl, rfl, -⟩ := h2
  unfold F32.max
  simp only [F32.isNaN, Bool.false_eq_true, if_false]
  by_cases h : v < w
  · rw [if_pos (fin_lt_fin.2 h), if_pos (fin_lt_fin.2 (mul_lt_mul_of_pos_left h hc))]
    exact k2
  · rw [if_neg (fun h' => h (fin_lt_fin.1 h')), if_neg (fun h' => h (lt_of_mul_lt_mul_left (fin_lt_fin.1 h') hc.le))]
    exact k1

theorem Vol.foldMax {k : ℕ} {lo hi : ℤ} {l l' : List F32} (h : List.Forall₂ (Vol k lo hi) l l') :
    ∀ {a a' : F32}, Vol k lo hi a a' → Vol k lo hi (F32.foldMax a l) (F32.foldMax a' l') := by
  induction h with
  | nil => intro a a' ha; exact ha
  | cons h1 _ ih => intro a a' ha; exact ih (ha.max h1)

/-! ### The order of scaled numbers -/

theorem gain_lt {c : ℚ} (hc : 0 < c) {a a' b b' : F32} (h1 : GainOf c a a') (h2 : GainOf c b b') : a < b ↔ a' < b' := by
  obtain ⟨v, hv, hw, rfl, rfl⟩ := h1
  obtain ⟨w, hv', hw', rfl, rfl⟩ := h2
  rw [fin_lt_fin, fin_lt_fin, mul_lt_mul_iff_right₀ hc]

theorem gain_le {c : ℚ} (hc : 0 < c) {a a' b b' : F32} (h1 : GainOf c a a') (h2 : GainOf c b b') : a ≤ b ↔ a' ≤ b' := by
  obtain ⟨v, hv, hw, rfl, rfl⟩ := h1
  obtain ⟨w, hv', hw', rfl, rfl⟩ := h2
  rw [fin_le_fin, fin_le_fin, mul_le_mul_iff_right₀ hc]

theorem gain_at {c : ℚ} {f f' : List F32} (h : List.Forall₂ (GainOf c) f f') : ∀ i, GainOf c (at' f i) (at' f' i) := by
  induction h with
  | nil => intro i; exact gain_zero c
  | cons h1 _ ih =>
    intro i
    cases i with
    | zero => exact h1
    | succ i => exact ih i

theorem gain_rawPeaks {c : ℚ} (hc : 0 < c) {f f' : List F32} {t t' : F32} (h : List.Forall₂ (GainOf c) f f')
    (ht : GainOf c t t') : rawPeaks f t = rawPeaks f' t' := by
  have hl := h.length_eq
  have ha := gain_at h
  unfold rawPeaks
  congr 1
  · congr 1
    · unfold interiorPeaks
      rw [hl]
      congr 1
      refine List.filter_congr fun i _ => ?_
      rw [decide_eq_decide.2 (gain_lt hc ht (ha i)), decide_eq_decide.2 (gain_lt hc (ha (i - 1)) (ha i)),
        decide_eq_decide.2 (gain_le hc (ha (i + 1)) (ha i))]
    · unfold firstPeak
      rw [hl]
      simp only [gain_lt hc ht (ha 0), gain_le hc (ha 1) (ha 0)]
  · unfold lastPeak
    dsimp only
    rw [hl]
    simp only [gain_lt hc ht (ha (f'.length - 1)), gain_lt hc (ha (f'.length - 1 - 1)) (ha (f'.length - 1))]

theorem gain_pickFrames {c : ℚ} (hc : 0 < c) {f f' : List F32} (h : List.Forall₂ (GainOf c) f f') (p : F32) :
    pickFrames f p = pickFrames f' p := by
  have hsort : List.Forall₂ (GainOf c) (sortAsc id f) (sortAsc id f') := by
    unfold sortAsc rsort
    clear p
    induction h with
    | nil => exact .nil
    | cons ha _ ih =>
      refine insertBy_rel (fun a b a' b' h1 h2 => ?_) ha ih
      have l1 := gain_le hc h1 h2
      have l2 := gain_le hc h2 h1
      have l3 := gain_lt hc h1 h2
      have l4 := gain_lt hc h2 h1
      simp only [id_eq, l1, l2, l3, l4]
  unfold pickFrames pctValue
  rw [h.length_eq]
  have hx : (∃ t t', idx (sortAsc id f) (pctIdx f'.length p) = .ok t ∧ idx (sortAsc id f') (pctIdx f'.length p) = .ok t' ∧
      GainOf c t t') ∨ idx (sortAsc id f) (pctIdx f'.length p) = .error .panic ∧
      idx (sortAsc id f') (pctIdx f'.length p) = .error .panic := by
    generalize pctIdx f'.length p = i
    generalize sortAsc id f = l at hsort ⊢
    generalize sortAsc id f' = l' at hsort ⊢
    clear h
    induction hsort generalizing i with
    | nil => right; exact ⟨rfl, rfl⟩
    | cons h1 _ ih =>
      cases i with
      | zero => left; exact ⟨_, _, rfl, rfl, h1⟩
      | succ i => exact ih i
  rcases hx with ⟨t, t', e1, e2, ht⟩ | ⟨e1, e2⟩
  · rw [e1, e2, R.ok_bind, R.ok_bind, gain_rawPeaks hc h ht]
  · rw [e1, e2]; rfl

theorem vol_diffFlux {k : ℕ} {lo hi : ℤ} {e e' : List F32} (h : List.Forall₂ (Vol k lo hi) e e') (h2 : -149 ≤ hi)
    (h3 : hi ≤ 127) : List.Forall₂ (Vol k (-149) hi) (diffFlux e) (diffFlux e') := by
  have ha : ∀ i, Vol k lo hi (at' e i) (at' e' i) := by
    clear h2 h3
    induction h with
    | nil => intro i; exact vol_zero _ _ _
    | cons h1 _ ih =>
      intro i
      cases i with
      | zero => exact h1
      | succ i => exact ih i
  unfold diffFlux
  rw [h.length_eq, List.forall₂_map_left_iff, List.forall₂_map_right_iff, List.forall₂_same]
  intro i _
  exact (ha (i + 1)).rise (ha i) h2 h3

/-! ### OrdinaryLevel numbers and their amplified copies -/

theorem ordinary_vol {v : F32} (h : OrdinaryLevel v) {k : ℕ} (hk : k ≤ 20) :
    Vol k (-40) 40 v.abs (v * gainOf2 k).abs ∧ (0 ≤ v → Vol k (-40) 40 v (v * gainOf2 k)) := by
  have hkp := pow2_pos (k : ℤ)
  have eg : gainOf2 k = fin (pow2 k) (pow2_grid (by omega) (by omega)) := by
    unfold gainOf2
    rw [ofNat_exact (Nat.pow_le_pow_right (by norm_num) (by omega))]
    congr 1
  have main : ∃ q hq hq', v = fin q hq ∧ v * gainOf2 k = fin (pow2 k * q) hq' ∧ (|q| = 0 ∨ pow2 (-40) ≤ |q|) ∧ |q| ≤ pow2 20 := by
    have : ∃ q hq, v = fin q hq ∧ (|q| = 0 ∨ pow2 (-40) ≤ |q|) ∧ |q| ≤ pow2 20 := by
      rcases h with rfl | ⟨h1, h2⟩
      · exact ⟨0, grid_zero, zero_def, .inl abs_zero, by rw [abs_zero]; exact (pow2_pos _).le⟩
      · rcases v with _ | s | ⟨q, hq⟩
        · exact absurd h1 (by decide +kernel)
        · exfalso; revert h2; cases s <;> decide +kernel
        · refine ⟨q, hq, rfl, ?_⟩
          rw [rnd_val (pow2_grid (by omega) (by omega))] at h1 h2
          exact ⟨.inr (fin_le_fin.1 h1), fin_le_fin.1 h2⟩
    obtain ⟨q, hq, rfl, hl, hu⟩ := this
    have hs : OnGrid (pow2 k * q) := by
      have := rndQ_scale_add hq.1 (show OnGrid 0 from rndQ_zero) (k := (k : ℤ)) (by positivity)
      rw [add_zero] at this
      unfold OnGrid
      rw [this, hq.1]
    have hb : |pow2 k * q| ≤ pow2 40 := by
      rw [_root_.abs_mul, abs_of_pos hkp]
      calc pow2 k * |q| ≤ pow2 20 * pow2 20 :=
            mul_le_mul (pow2_le' (by exact_mod_cast hk)) hu (_root_.abs_nonneg _) (pow2_pos _).le
        _ = pow2 40 := by rw [← pow2_add]; norm_num
    have hg : OnGrid (pow2 k * q) ∧ |pow2 k * q| < pow2 128 := ⟨hs, _root_.lt_of_le_of_lt hb (pow2_lt (by norm_num))⟩
    refine ⟨q, hq, hg, rfl, ?_, hl, hu⟩
    rw [eg, mul_fin, _root_.mul_comm, rnd_val hg]
  obtain ⟨q, hq, hq', rfl, e, hl, hu⟩ := main
  have hb : pow2 k * |q| ≤ pow2 40 :=
    calc pow2 k * |q| ≤ pow2 20 * pow2 20 :=
          mul_le_mul (pow2_le' (by exact_mod_cast hk)) hu (_root_.abs_nonneg _) (pow2_pos _).le
      _ = pow2 40 := by rw [← pow2_add]; norm_num
  have habs : |pow2 k * q| = pow2 k * |q| := by rw [_root_.abs_mul, abs_of_pos hkp]
  rw [e]
  refine ⟨?_, fun h0 => ?_⟩
  · have ga : OnGrid |q| ∧ |(|q|)| < pow2 128 := ⟨onGrid_abs hq.1, by rw [abs_abs]; exact hq.2⟩
    have gb : OnGrid (pow2 k * |q|) ∧ |(pow2 k * |q|)| < pow2 128 := by
      rw [← habs]; exact ⟨onGrid_abs hq'.1, by rw [abs_abs]; exact hq'.2⟩
    exact ⟨|q|, ga, gb, rfl, by show fin |pow2 k * q| _ = _; congr 1, _root_.abs_nonneg _, hl, hb⟩
  · have q0 : 0 ≤ q := by rw [zero_def] at h0; exact fin_le_fin.1 h0
    rw [abs_of_nonneg q0] at hl hb
    exact ⟨q, hq, hq', rfl, rfl, q0, hl, hb⟩

theorem mapM_rel {α β γ} {F : α → R β} {F' : α → R γ} {r : β → γ → Prop} : ∀ {l : List α} {e : List β},
    l.mapM F = .ok e → (∀ i ∈ l, ∀ a, F i = .ok a → ∃ a', F' i = .ok a' ∧ r a a') →
    ∃ e', l.mapM F' = .ok e' ∧ List.Forall₂ r e e'
  | [], e, h, _ => by
    rw [List.mapM_nil] at h
    cases h
    exact ⟨[], rfl, .nil⟩
  | i :: l, e, h, hr => by
    rw [List.mapM_cons] at h
    obtain ⟨a, ha, h⟩ := R.bind_eq_ok.1 h
    obtain ⟨t, ht, h⟩ := R.bind_eq_ok.1 h
    cases h
    obtain ⟨a', ha', hra⟩ := hr i (by simp) a ha
    obtain ⟨t', ht', hrt⟩ := mapM_rel ht (fun j hj => hr j (by simp [hj]))
    refine ⟨a' :: t', ?_, .cons hra hrt⟩
    rw [List.mapM_cons, ha', R.ok_bind, ht', R.ok_bind]; rfl

theorem vol_squares {x : List F32} (hx : ∀ v ∈ x, OrdinaryLevel v) {k : ℕ} (hk : k ≤ 20) :
    List.Forall₂ (Vol (k + k) (-80) 80) (x.map (fun v => v * v)) ((x.map (· * gainOf2 k)).map (fun v => v * v)) := by
  rw [List.map_map, List.forall₂_map_left_iff, List.forall₂_map_right_iff, List.forall₂_same]
  intro v hv
  have := (ordinary_vol (hx v hv) hk).1
  have := this.mul this (by norm_num) (by norm_num) (by norm_num) (by norm_num)
  rw [← sq_abs, ← sq_abs] at this
  exact this

/-- **C128 (partial): volume moves no onset of the energy-flux detector.** A recording with at least one onset
has exactly the same onsets after amplification by `2^k`. -/
theorem C128_energy_partial {M : Libm} {x : List F32} {frame hop : ℕ} {thrDb : F32} {l : List ℕ} {k : ℕ} (hk : k ≤ 20)
    (hx : ∀ v ∈ x, OrdinaryLevel v) (hn : x.length ≤ 2 ^ 24)
    (ht : rnd (pow2 (-60)) ≤ M.powf 10 (thrDb / 20) ∧ M.powf 10 (thrDb / 20) ≤ rnd (pow2 20))
    (h : energyFluxOnsets M x frame hop thrDb = .ok l) (hl : l ≠ []) :
    energyFluxOnsets M (x.map (· * gainOf2 k)) frame hop thrDb = .ok l := by
  have hkp := pow2_pos (k : ℤ)
  unfold energyFluxOnsets at h ⊢
  rw [List.length_map]
  by_cases h0 : x = []
  · rw [if_pos h0] at h; cases h; exact absurd rfl hl
  rw [if_neg h0] at h
  rw [if_neg (by rw [List.map_eq_nil_iff]; exact h0)]
  by_cases h1 : frame = 0
  · rw [if_pos h1] at h; cases h
  rw [if_neg h1] at h ⊢
  by_cases h2 : hop = 0
  · rw [if_pos h2] at h; cases h
  rw [if_neg h2] at h ⊢
  by_cases h3 : x.length < frame
  · rw [if_pos h3] at h; cases h; exact absurd rfl hl
  rw [if_neg h3] at h ⊢
  dsimp only at h ⊢
  by_cases h4 : (x.length - frame) / hop + 1 < 2
  · rw [if_pos h4] at h; cases h; exact absurd rfl hl
  rw [if_neg h4] at h ⊢
  obtain ⟨e, he, h⟩ := R.bind_eq_ok.1 h
  obtain ⟨e', he', hr⟩ := mapM_rel (F' := frameEnergy (x.map (· * gainOf2 k)) frame hop) (r := Vol k (-52) 52) he (by
    intro i hi a ha
    rw [List.mem_range] at hi
    have hi' : i * hop ≤ x.length - frame :=
      (Nat.mul_le_mul_right hop (show i ≤ (x.length - frame) / hop by omega)).trans (Nat.div_mul_le_self _ _)
    have hmin : Nat.min (i * hop + frame) x.length = i * hop + frame := Nat.min_eq_left (by omega)
    unfold frameEnergy at ha ⊢
    dsimp only at ha ⊢
    rw [List.length_map, hmin, slice_ok (by omega) (by rw [List.length_map]; omega), R.ok_bind, R.pure_eq_ok]
    rw [hmin, slice_ok (by omega) (by omega), R.ok_bind, R.pure_eq_ok] at ha
    cases ha
    refine ⟨_, rfl, ?_⟩
    rw [← List.map_drop, ← List.map_take, show i * hop + frame - i * hop = frame by omega]
    have hseg : ∀ v ∈ (x.drop (i * hop)).take frame, OrdinaryLevel v :=
      fun v hv => hx v (List.mem_of_mem_drop (List.mem_of_mem_take hv))
    have s1 := (Vol.sum (vol_squares hseg hk) (by rw [List.length_map, List.length_take]; omega) (by norm_num) (by norm_num)
      (by norm_num) (by norm_num)).div_count (n := frame) (by omega) (by omega) (by norm_num) (by norm_num) (by norm_num) (by norm_num)
    exact Vol.sqrt (lo := -52) (hi := 52) s1 (by norm_num) (by norm_num) (by norm_num))
  rw [he', R.ok_bind]
  have hf := vol_diffFlux hr (by norm_num) (by norm_num)
  have hg : List.Forall₂ (GainOf (pow2 k)) (diffFlux e) (diffFlux e') := hf.imp fun _ _ h => h.gain
  by_cases h5 : diffFlux e = []
  · rw [if_pos h5] at h; cases h; exact absurd rfl hl
  rw [if_neg h5] at h
  rw [if_neg (fun h' => h5 (by rw [← List.length_eq_zero_iff, hf.length_eq, h', List.length_nil]))]
  have hm := Vol.foldMax hf (vol_zero k (-149) 52)
  by_cases h6 : F32.foldMax 0 (diffFlux e) ≤ EPS
  · rw [if_pos h6] at h; cases h; exact absurd rfl hl
  rw [if_neg h6] at h
  obtain ⟨m, gm, gm', em, em', m0, -, mh⟩ := hm
  have hEPS : EPS = rnd (1 / 10000000000) := by decide +kernel
  have hbig : pow2 (-34) ≤ m := by
    by_contra hlt
    refine h6 ?_
    rw [em]
    refine F32.le_trans (b := rnd (pow2 (-34))) ?_ (by decide +kernel)
    rw [rnd_val (pow2_grid (by omega) (by omega))]
    exact fin_le_fin.2 (not_le.1 hlt).le
  rw [if_neg (fun h' => h6 (by
    rw [em]; rw [em'] at h'
    exact F32.le_trans (fin_le_fin.2 (le_mul_of_one_le_left m0 (one_le_pow2 k))) h'))]
  have hthr : GainOf (pow2 k) (F32.foldMax 0 (diffFlux e) * M.powf 10 (thrDb / 20))
      (F32.foldMax 0 (diffFlux e') * M.powf 10 (thrDb / 20)) := by
    generalize M.powf 10 (thrDb / 20) = t at ht
    obtain ⟨t1, t2⟩ := ht
    rw [rnd_val (pow2_grid (by omega) (by omega))] at t1 t2
    rcases t with _ | s | ⟨c, hc⟩
    · exact absurd rfl (ne_nan_right t1)
    · cases s
      · cases t2
      · cases t1
    · have c1 := fin_le_fin.1 t1
      have c2 := fin_le_fin.1 t2
      have e0 : pow2 ((0 : ℕ) : ℤ) * c = c := by rw [pow2_nat]; ring
      have hV : Vol 0 (-60) 20 (fin c hc) (fin c hc) :=
        ⟨c, hc, by rw [e0]; exact hc, rfl, by congr 1; exact e0.symm, (pow2_pos _).le.trans c1, .inr c1, by rw [e0]; exact c2⟩
      have hM : Vol k (-34) 52 (F32.foldMax 0 (diffFlux e)) (F32.foldMax 0 (diffFlux e')) :=
        ⟨m, gm, gm', em, em', m0, .inr hbig, mh⟩
      exact (hM.mul hV (by norm_num) (by norm_num) (by norm_num) (by norm_num)).gain
  rw [← gain_rawPeaks hkp hg hthr]
  exact h

theorem gain_framesOk {mags : List (List F32)} {g : F32} (p : F32) :
    framesOk (mags.map (·.map (· * g))) p = framesOk mags p := by
  have hh : ((mags.map (·.map (· * g))).headD []).length = (mags.headD []).length := by
    cases mags <;> simp
  unfold framesOk
  rw [hh, List.any_map]
  simp only [Function.comp_def, List.length_map]

/-- **C128 (partial): volume moves no onset of the high-frequency-content detector.** -/
theorem C128_hfc_partial {mags : List (List F32)} {sr : ℕ} {p : F32} {k : ℕ} (hk : k ≤ 20)
    (hx : ∀ fr ∈ mags, fr.length ≤ 2 ^ 16 ∧ ∀ v ∈ fr, 0 ≤ v ∧ OrdinaryLevel v) :
    hfcOnsets (mags.map (·.map (· * gainOf2 k))) sr p = hfcOnsets mags sr p := by
  have hk2 := pow2_pos ((k + k : ℕ) : ℤ)
  have hE : List.Forall₂ (Vol (k + k) (-80) 120) (mags.map hfcOf) ((mags.map (·.map (· * gainOf2 k))).map hfcOf) := by
    rw [List.map_map, List.forall₂_map_left_iff, List.forall₂_map_right_iff, List.forall₂_same]
    intro fr hfr
    obtain ⟨hlen, hv⟩ := hx fr hfr
    have hsum : ∀ fr : List F32, hfcOf fr = F32.sum (fr.zipIdx.map (fun p => F32.ofNat p.2 * p.1 * p.1)) := by
      intro fr
      unfold hfcOf F32.sum
      rw [List.foldl_map]
    rw [Function.comp_apply, hsum, hsum, List.zipIdx_map, List.map_map]
    refine Vol.sum (hi := 96) ?_ (by rw [List.length_map, List.length_zipIdx]; omega) (by norm_num) (by norm_num) (by norm_num) (by norm_num)
    rw [List.forall₂_map_left_iff, List.forall₂_map_right_iff, List.forall₂_same]
    rintro ⟨v, i⟩ hvi
    obtain ⟨-, hi, hvm⟩ := List.mem_zipIdx hvi
    have hvm : v ∈ fr := by rw [hvm]; exact List.getElem_mem _
    have hV := (ordinary_vol (hv v hvm).2 hk).2 (hv v hvm).1
    have hi' : i ≤ 2 ^ 16 := by omega
    have hq : (i : ℚ) = 0 ∨ pow2 0 ≤ (i : ℚ) := by
      rcases Nat.eq_zero_or_pos i with h | h
      · left; exact_mod_cast h
      · right; rw [show (0 : ℤ) = ((0 : ℕ) : ℤ) from rfl, pow2_nat, pow_zero]; exact_mod_cast h
    have hq' : (i : ℚ) ≤ pow2 16 := by
      rw [show (16 : ℤ) = ((16 : ℕ) : ℤ) from rfl, pow2_nat]; exact_mod_cast hi'
    have hW := (hV.mul_const (hc := grid_nat (by omega)) (by positivity : (0 : ℚ) ≤ (i : ℚ)) hq hq' (by norm_num) (by norm_num) (by norm_num) (by norm_num)).mul hV
      (by norm_num) (by norm_num) (by norm_num) (by norm_num)
    rw [← ofNat_exact (by omega)] at hW
    exact hW
  have hf := (vol_diffFlux hE (by norm_num) (by norm_num)).imp fun _ _ h => h.gain
  unfold hfcOnsets
  rw [gain_framesOk, List.length_map]
  by_cases h0 : mags = []
  · rw [h0]; rfl
  rw [if_neg h0, if_neg (by rw [List.map_eq_nil_iff]; exact h0)]
  dsimp only
  rw [gain_pickFrames hk2 hf p]
  have : diffFlux (mags.map hfcOf) = [] ↔ diffFlux ((mags.map (·.map (· * gainOf2 k))).map hfcOf) = [] := by
    rw [← List.length_eq_zero_iff, hf.length_eq, List.length_eq_zero_iff]
  simp only [this]

/-- **C128 (partial): volume moves no onset of the percussive detector.** -/
theorem C128_hpss_partial {perc : List (List F32)} {p : F32} {k : ℕ} (hk : k ≤ 20)
    (hx : ∀ fr ∈ perc, fr.length ≤ 2 ^ 24 ∧ ∀ v ∈ fr, OrdinaryLevel v) :
    hpssOnsets (perc.map (·.map (· * gainOf2 k))) p = hpssOnsets perc p := by
  have hk2 := pow2_pos ((k + k : ℕ) : ℤ)
  have hE : List.Forall₂ (Vol (k + k) (-80) 104) (perc.map (fun fr => F32.sum (fr.map (fun x => x * x))))
      ((perc.map (·.map (· * gainOf2 k))).map (fun fr => F32.sum (fr.map (fun x => x * x)))) := by
    rw [List.map_map, List.forall₂_map_left_iff, List.forall₂_map_right_iff, List.forall₂_same]
    intro fr hfr
    obtain ⟨hlen, hv⟩ := hx fr hfr
    exact Vol.sum (hi := 80) (vol_squares hv hk) (by rw [List.length_map]; exact hlen) (by norm_num) (by norm_num) (by norm_num) (by norm_num)
  have hf := (vol_diffFlux hE (by norm_num) (by norm_num)).imp fun _ _ h => h.gain
  unfold hpssOnsets
  rw [List.length_map]
  by_cases h0 : perc = []
  · rw [h0]; rfl
  rw [if_neg h0, if_neg (by rw [List.map_eq_nil_iff]; exact h0)]
  dsimp only
  rw [gain_pickFrames hk2 hf p]
  have := hf.length_eq
  have : diffFlux (perc.map (fun fr => F32.sum (fr.map (fun x => x * x)))) = [] ↔
      diffFlux ((perc.map (·.map (· * gainOf2 k))).map (fun fr => F32.sum (fr.map (fun x => x * x)))) = [] := by
    rw [← List.length_eq_zero_iff, this, List.length_eq_zero_iff]
  simp only [this]

instance (v : F32) : Decidable (OrdinaryLevel v) := by unfold OrdinaryLevel; infer_instance

/-- a recording with two attacks, eight times as loud -/
example : (∀ v ∈ ([0, 0, 1, -1, 0, 0, 3, 3] : List F32), OrdinaryLevel v) ∧
    (rnd (pow2 (-60)) ≤ Libm.demo.powf 10 (-40 / 20) ∧ Libm.demo.powf 10 (-40 / 20) ≤ rnd (pow2 20)) ∧
    energyFluxOnsets Libm.demo [0, 0, 1, -1, 0, 0, 3, 3] 2 1 (-40) = .ok [1, 5] ∧
    ([0, 0, 1, -1, 0, 0, 3, 3] : List F32).map (· * gainOf2 3) = [0, 0, 8, -8, 0, 0, 24, 24] ∧
    energyFluxOnsets Libm.demo (([0, 0, 1, -1, 0, 0, 3, 3] : List F32).map (· * gainOf2 3)) 2 1 (-40) = .ok [1, 5] :=
  ⟨by decide +kernel, by decide +kernel, by decide +kernel, by decide +kernel,
    C128_energy_partial (by norm_num) (by decide +kernel) (by decide +kernel) (by decide +kernel) (by decide +kernel) (by decide +kernel)⟩

example : (∀ fr ∈ ([[0, 1], [0, 3], [0, 1], [1, 5], [0, 0]] : List (List F32)), fr.length ≤ 2 ^ 16 ∧ ∀ v ∈ fr, 0 ≤ v ∧ OrdinaryLevel v) ∧
    hfcOnsets [[0, 1], [0, 3], [0, 1], [1, 5], [0, 0]] 44100 0.25 = .ok [1, 3] ∧
    hfcOnsets (([[0, 1], [0, 3], [0, 1], [1, 5], [0, 0]] : List (List F32)).map (·.map (· * gainOf2 7))) 44100 0.25 = .ok [1, 3] ∧
    hpssOnsets [[0, 1], [0, 3], [0, 1], [1, 5], [0, 0]] 0.25 = .ok [1, 3] ∧
    hpssOnsets (([[0, 1], [0, 3], [0, 1], [1, 5], [0, 0]] : List (List F32)).map (·.map (· * gainOf2 7))) 0.25 = .ok [1, 3] := by
  refine ⟨by decide +kernel, by decide +kernel, ?_, by decide +kernel, ?_⟩
  · rw [C128_hfc_partial (by norm_num) (by decide +kernel)]; decide +kernel
  · rw [C128_hpss_partial (by norm_num) (by decide +kernel)]; decide +kernel

/-- a recording with two attacks, at a level of about -210 dB -/
def faint : List F32 := ([0, 0, 1, 1, 0, 0, 3, 3] : List F32).map (· * rnd (pow2 (-36)))

/-- **C128 is violated.** A very quiet recording has no energy-flux onset at all, although the same recording
played louder has two: the detector compares the rise of the level with a fixed 1e-10. -/
theorem C128_violated : ¬ ∀ (M : Libm) (x : List F32) (frame hop : ℕ) (thrDb : F32) (k : ℕ), k ≤ 20 →
    (∀ v ∈ x, OrdinaryLevel v) → rnd (pow2 (-60)) ≤ M.powf 10 (thrDb / 20) ∧ M.powf 10 (thrDb / 20) ≤ rnd (pow2 20) →
    energyFluxOnsets M (x.map (· * gainOf2 k)) frame hop thrDb = energyFluxOnsets M x frame hop thrDb := by
  intro h
  have := h Libm.demo faint 2 1 (-40) 20 (by norm_num) (by decide +kernel) (by decide +kernel)
  rw [show energyFluxOnsets Libm.demo faint 2 1 (-40) = .ok [] by decide +kernel,
    show energyFluxOnsets Libm.demo (faint.map (· * gainOf2 20)) 2 1 (-40) = .ok [1, 5] by decide +kernel] at this
  cases this

end Verif.Props
