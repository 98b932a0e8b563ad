/-
Property theorems C131: a piece played at half the tempo has the same time signature, the same grid stability and its
bars at the same beats (src/features/beat_tracking/{mod,time_signature}.rs).
-/
import Verif.Props.VolumeChroma
import Verif.Model.Beat

namespace Verif.Props
open Verif Verif.Beat Verif.F32

/-- `t 2^k`: the time of a beat when the piece is played `2^k` times slower -/
def slower (k : ℕ) (t : F32) : F32 := t * gainOf2 k

/-- consecutive beats are a millisecond apart, or not in order -/
def Spaced : List F32 → Prop
  | a :: b :: l => (b - a ≤ 0 ∨ rnd (pow2 (-10)) ≤ b - a) ∧ Spaced (b :: l)
  | _ => True

/-- beat times from 0 to `2^20` seconds -/
def BeatTimes (l : List F32) : Prop := ∀ t ∈ l, 0 ≤ t ∧ t ≤ rnd (pow2 20)

/-! ### Scaled intervals -/

/-- the scaled copy of a beat time -/
theorem slower_vol {k : ℕ} (hk : k ≤ 10) {t : F32} (h : 0 ≤ t ∧ t ≤ rnd (pow2 20)) : Vol k (-149) 30 t (slower k t) := by
  have hkp := pow2_pos (k : ℤ)
  obtain ⟨h0, h1⟩ := h
  rw [rnd_val (pow2_grid (by omega) (by omega))] at h1
  rcases nonneg_cases h0 with rfl | ⟨q, hq, rfl, q0⟩
  · cases h1
  have hq1 := fin_le_fin.1 h1
  have eg : gainOf2 k = fin (pow2 k) (pow2_grid (by omega) (by omega)) := by
    unfold gainOf2
    rw [ofNat_exact (Nat.pow_le_pow_right (by norm_num) (by omega))]
    congr 1
  have hs : OnGrid (pow2 k * q) := by
    have := rndQ_scale_add hq.1 (show OnGrid 0 from rndQ_zero) (k := (k : ℤ)) (by positivity)
    rw [add_zero] at this
    unfold OnGrid
    rw [this, hq.1]
  have hb : pow2 k * q ≤ pow2 30 :=
    calc pow2 k * q ≤ pow2 10 * pow2 20 := mul_le_mul (pow2_le' (by exact_mod_cast hk)) hq1 q0 (pow2_pos _).le
      _ = pow2 30 := by rw [← pow2_add]; norm_num
  have hg : OnGrid (pow2 k * q) ∧ |pow2 k * q| < pow2 128 :=
    ⟨hs, by rw [abs_of_nonneg (_root_.mul_nonneg hkp.le q0)]; exact _root_.lt_of_le_of_lt hb (pow2_lt (by norm_num))⟩
  refine ⟨q, hq, hg, rfl, ?_, q0, grid_lower hq.1 q0, hb⟩
  unfold slower
  rw [eg, mul_fin, _root_.mul_comm, rnd_val hg]

/-- differences of scaled numbers -/
theorem vol_sub {k : ℕ} {lo lo' hi : ℤ} {x x' y y' : F32} (h : Vol k lo hi x x') (h' : Vol k lo' hi y y') (h2 : -149 ≤ hi)
    (h3 : hi ≤ 127) : ∃ v hv hw, x - y = fin v hv ∧ x' - y' = fin (pow2 k * v) hw ∧ |pow2 k * v| ≤ pow2 hi := by
  obtain ⟨v, hv, hw, rfl, rfl, v0, -, vh⟩ := h
  obtain ⟨w, hv', hw', rfl, rfl, w0, -, wh⟩ := h'
  have hk := pow2_pos (k : ℤ)
  have hk1 := one_le_pow2 k
  rw [sub_fin, sub_fin]
  have e1 : pow2 k * v - pow2 k * w = pow2 k * (v - w) := by ring
  have hs : rndQ (pow2 k * (v - w)) = pow2 k * rndQ (v - w) := by
    rw [sub_eq_add_neg]; exact rndQ_scale_add hv.1 (onGrid_neg hv'.1) (by positivity)
  have p0 := _root_.mul_nonneg hk.le v0
  have p0' := _root_.mul_nonneg hk.le w0
  have a1 : |pow2 k * (v - w)| ≤ pow2 hi := by rw [← e1, abs_le]; constructor <;> linarith
  have a2 : |v - w| ≤ pow2 hi := by
    rw [_root_.abs_mul, abs_of_pos hk] at a1
    exact (le_mul_of_one_le_left (_root_.abs_nonneg _) hk1).trans a1
  obtain ⟨g', f', u'⟩ := rnd_finite_of_abs_le (pow2_grid h2 h3) a1
  obtain ⟨g, f, u⟩ := rnd_finite_of_abs_le (pow2_grid h2 h3) a2
  rw [e1, f, f']
  have g'' := g'
  rw [hs] at g''
  exact ⟨_, g, g'', rfl, by congr 1, by rw [← hs]; exact u'⟩

theorem gain_sub {k : ℕ} {lo lo' hi : ℤ} {x x' y y' : F32} (h : Vol k lo hi x x') (h' : Vol k lo' hi y y') (h2 : -149 ≤ hi)
    (h3 : hi ≤ 127) : GainOf (pow2 k) (x - y) (x' - y') := by
  obtain ⟨v, hv, hw, e, e', -⟩ := vol_sub h h' h2 h3
  exact ⟨v, hv, hw, e, e'⟩

theorem gain_absolute {c : ℚ} (hc : 0 < c) {x y : F32} (h : GainOf c x y) : GainOf c x.abs y.abs := by
  obtain ⟨v, hv, hw, rfl, rfl⟩ := h
  have e : |c * v| = c * |v| := by rw [_root_.abs_mul, abs_of_pos hc]
  have g : OnGrid (c * |v|) ∧ |(c * |v|)| < pow2 128 := by
    rw [← e]; exact ⟨onGrid_abs hw.1, by rw [abs_abs]; exact hw.2⟩
  exact ⟨|v|, ⟨onGrid_abs hv.1, by rw [abs_abs]; exact hv.2⟩, g, rfl, by show fin |c * v| _ = _; congr 1⟩

theorem gain_quotient {c : ℚ} (hc : 0 < c) {x y m m' : F32} (h : GainOf c x y) (hm : GainOf c m m') (h0 : 0 < m) : y / m' = x / m := by
  have := gain_quotients hc (.cons h .nil) hm h0
  simp only [List.map_cons, List.map_nil, List.cons.injEq, and_true] at this
  exact this.symm

/-- positive intervals of the slower beats -/
theorem vol_intervals {k : ℕ} (hk : k ≤ 10) : ∀ {l : List F32}, BeatTimes l → Spaced l →
    List.Forall₂ (Vol k (-10) 30) (posIntervals l) (posIntervals (l.map (slower k)))
  | [], _, _ => .nil
  | [_], _, _ => .nil
  | a :: b :: l, ht, hs => by
    have ih := vol_intervals hk (l := b :: l) (fun t h => ht t (by simp [h])) hs.2
    have hab := vol_sub (slower_vol hk (ht b (by simp))) (slower_vol hk (ht a (by simp))) (by norm_num) (by norm_num)
    obtain ⟨v, hv, hw, e, e', hu⟩ := hab
    rw [List.map_cons, List.map_cons, posIntervals, posIntervals]
    rw [List.map_cons] at ih
    have hiff : (0 : F32) < b - a ↔ (0 : F32) < slower k b - slower k a := gain_lt (pow2_pos (k : ℤ)) (gain_zero _) ⟨v, hv, hw, e, e'⟩
    by_cases h0 : (0 : F32) < b - a
    · rw [if_pos h0, if_pos (hiff.1 h0)]
      refine .cons ⟨v, hv, hw, e, e', ?_, .inr ?_, (le_abs_self _).trans hu⟩ ih
      · rw [e, zero_def] at h0; exact (fin_lt_fin.1 h0).le
      · rcases hs.1 with h1 | h1
        · exact absurd h0 (F32.not_lt_of_le h1)
        · rw [e, rnd_val (pow2_grid (by omega) (by omega))] at h1
          exact fin_le_fin.1 h1
    · rw [if_neg h0, if_neg (fun h => h0 (hiff.2 h))]
      exact ih

/-! ### Mean and variance -/

theorem Vol.div_small {k : ℕ} {lo hi : ℤ} {x y : F32} (h : Vol k lo hi x y) {n b : ℕ} (hn : 0 < n) (hN : n ≤ 2 ^ b) (hb : b ≤ 24)
    (h1 : -126 ≤ lo - b) (h1' : lo ≤ 127) (h2 : -149 ≤ hi) (h3 : hi ≤ 127) :
    Vol k (lo - b) hi (x / F32.ofNat n) (y / F32.ofNat n) := by
  obtain ⟨v, hv, hw, rfl, rfl, v0, vl, vh⟩ := h
  have hk := pow2_pos (k : ℤ)
  have hq : (0 : ℚ) < n := by exact_mod_cast hn
  have hq1 : (1 : ℚ) ≤ n := by exact_mod_cast hn
  rw [ofNat_exact (hN.trans (Nat.pow_le_pow_right (by norm_num) hb)), div_fin hq.ne', div_fin hq.ne', mul_div_assoc]
  have d0 : 0 ≤ v / n := _root_.div_nonneg v0 hq.le
  have hlo : v / n = 0 ∨ pow2 (lo - b) ≤ v / n := by
    rcases vl with rfl | vl
    · left; rw [zero_div]
    · right
      rw [le_div_iff₀ hq]
      have : pow2 (lo - b) * n ≤ pow2 (lo - b) * pow2 b := by
        refine mul_le_mul_of_nonneg_left ?_ (pow2_pos _).le
        rw [pow2_nat]
        exact_mod_cast hN
      rw [← pow2_add, show lo - b + b = lo by ring] at this
      exact this.trans vl
  refine vol_rnd d0 hlo ?_ (by omega) (by omega) h2 h3 ?_
  · rw [← mul_div_assoc]
    exact (div_le_self (_root_.mul_nonneg hk.le v0) hq1).trans vh
  · rcases hlo with hz | hl
    · rw [hz, mul_zero, rndQ_zero, mul_zero]
    · exact rndQ_scale (by rw [abs_of_nonneg d0]; exact (pow2_le' h1).trans hl) (by positivity)

theorem Vol.weaken {k : ℕ} {lo hi lo' hi' : ℤ} {x y : F32} (h : Vol k lo hi x y) (h1 : lo' ≤ lo) (h2 : hi ≤ hi') : Vol k lo' hi' x y := by
  obtain ⟨v, hv, hw, e, e', v0, vl, vh⟩ := h
  exact ⟨v, hv, hw, e, e', v0, vl.imp id fun h => (pow2_le' h1).trans h, vh.trans (pow2_le' h2)⟩

/-- the sum of a few scaled numbers -/
theorem vol_sum_small {k b : ℕ} {lo hi : ℤ} {l l' : List F32} (h : List.Forall₂ (Vol k lo hi) l l') (hb : b ≤ 24) (hl : l.length ≤ 2 ^ b)
    (h1 : -149 ≤ lo) (h2 : -149 ≤ hi) (h3 : hi + 24 ≤ 127) : Vol k lo (hi + b) (F32.sum l) (F32.sum l') :=
  (volN_sum h h1 h2 h3 (n := 0) (by have := hl.trans (Nat.pow_le_pow_right (by norm_num) hb); omega) (volN_zero k lo hi 0)).vol
    (b := b) (by omega)

/-- numbers from `2^lo` on are multiples of `2^(lo-23)` -/
theorem grid_mult {v : ℚ} (hv : OnGrid v) {lo : ℤ} (h : pow2 lo ≤ v) : ∃ z : ℤ, v = z * pow2 (lo - 23) := by
  have h0 : 0 < v := _root_.lt_of_lt_of_le (pow2_pos _) h
  have hlog : lo ≤ Int.log 2 |v| := by
    rw [abs_of_pos h0]
    have := (Int.zpow_le_iff_le_log (b := 2) (by norm_num) h0 (x := lo)).1 (by rw [pow2_eq] at h; exact_mod_cast h)
    exact this
  have hu : lo - 23 ≤ ulpExp v := by unfold ulpExp; exact (by omega : lo - 23 ≤ Int.log 2 |v| - 23).trans (le_max_left _ _)
  obtain ⟨n, hn⟩ := Int.eq_ofNat_of_zero_le (by omega : 0 ≤ ulpExp v - (lo - 23))
  refine ⟨roundEven (v / pow2 (ulpExp v)) * 2 ^ n, ?_⟩
  have e : pow2 (ulpExp v) = 2 ^ n * pow2 (lo - 23) := by
    rw [← pow2_nat, ← pow2_add]; congr 1; omega
  have hv' : v = roundEven (v / pow2 (ulpExp v)) * pow2 (ulpExp v) := by
    conv_lhs => rw [← (show rndQ v = v from hv)]
    rfl
  push_cast
  rw [_root_.mul_assoc, ← e]
  exact hv'

/-- the square of the difference of two scaled numbers -/
theorem vol_sqdiff {k : ℕ} {x x' m m' : F32} (h : Vol k (-22) 42 x x') (h' : Vol k (-22) 42 m m') (hx : 0 < x) (hm : 0 < m) :
    Vol (k + k) (-90) 84 ((x - m) * (x - m)) ((x' - m') * (x' - m')) := by
  have hk := pow2_pos (k : ℤ)
  obtain ⟨d, hd, hd', e, e', hu⟩ := vol_sub h h' (by norm_num) (by norm_num)
  have hlo : |d| = 0 ∨ pow2 (-45) ≤ |d| := by
    obtain ⟨v, hv, hw, rfl, rfl, v0, vl, -⟩ := h
    obtain ⟨w, hv', hw', rfl, rfl, w0, wl, -⟩ := h'
    have v1 : 0 < v := by rw [zero_def] at hx; exact fin_lt_fin.1 hx
    have w1 : 0 < w := by rw [zero_def] at hm; exact fin_lt_fin.1 hm
    obtain ⟨a, ea⟩ := grid_mult hv.1 (vl.resolve_left v1.ne')
    obtain ⟨b, eb⟩ := grid_mult hv'.1 (wl.resolve_left w1.ne')
    rw [sub_fin] at e
    have hr : rnd (v - w) = fin d hd := e
    have hdv : d = rndQ (v - w) := by
      unfold rnd at hr
      split_ifs at hr
      injection hr with hr
      exact hr.symm
    have hz : v - w = ((a - b : ℤ) : ℚ) * pow2 (-45) := by
      rw [ea, eb]; push_cast; norm_num; ring
    rcases eq_or_ne (a - b) 0 with h0 | h0
    · left
      rw [hdv, hz, h0]
      norm_num [rndQ_zero]
    · right
      have h1 : (1 : ℚ) ≤ |((a - b : ℤ) : ℚ)| := by
        rw [← Int.cast_abs]
        exact_mod_cast Int.one_le_abs h0
      have h2 : pow2 (-45) ≤ |v - w| := by
        rw [hz, _root_.abs_mul, abs_of_pos (pow2_pos _)]
        exact le_mul_of_one_le_left (pow2_pos _).le h1
      have hra : ∀ q : ℚ, |rndQ q| = rndQ |q| := by
        intro q
        rcases le_total 0 q with h | h
        · rw [abs_of_nonneg h, abs_of_nonneg (rndQ_nonneg h)]
        · have := rndQ_nonneg (neg_nonneg.2 h)
          rw [rndQ_neg] at this
          rw [abs_of_nonpos h, abs_of_nonpos (by linarith), rndQ_neg]
      rw [hdv, hra]
      have := rndQ_mono h2
      rwa [show rndQ (pow2 (-45)) = pow2 (-45) from onGrid_pow2 (by norm_num)] at this
  have ga : OnGrid |d| ∧ |(|d|)| < pow2 128 := ⟨onGrid_abs hd.1, by rw [abs_abs]; exact hd.2⟩
  have habs : |pow2 k * d| = pow2 k * |d| := by rw [_root_.abs_mul, abs_of_pos hk]
  have gb : OnGrid (pow2 k * |d|) ∧ |(pow2 k * |d|)| < pow2 128 := by
    rw [← habs]; exact ⟨onGrid_abs hd'.1, by rw [abs_abs]; exact hd'.2⟩
  have hA : Vol k (-45) 42 (x - m).abs (x' - m').abs := by
    rw [e, e']
    exact ⟨|d|, ga, gb, rfl, by show fin |pow2 k * d| _ = _; congr 1, _root_.abs_nonneg _, hlo, by rw [← habs]; exact hu⟩
  rw [sq_abs (x - m), sq_abs (x' - m')]
  exact hA.mul hA (by norm_num) (by norm_num) (by norm_num) (by norm_num)

theorem vol_mean {k : ℕ} {l l' : List F32} (h : List.Forall₂ (Vol k (-10) 30) l l') (h0 : l ≠ []) (hl : l.length ≤ 2 ^ 12) :
    Vol k (-22) 42 (mean l) (mean l') := by
  unfold mean
  rw [← h.length_eq]
  exact (vol_sum_small h (b := 12) (by norm_num) hl (by norm_num) (by norm_num) (by norm_num)).div_small (b := 12)
    (List.length_pos_of_ne_nil h0) hl (by norm_num) (by norm_num) (by norm_num) (by norm_num) (by norm_num)

theorem posInterval_pos : ∀ {l : List F32}, ∀ x ∈ posIntervals l, 0 < x
  | [], x, hx => by cases hx
  | [_], x, hx => by cases hx
  | a :: b :: l, x, hx => by
    rw [posIntervals] at hx
    split_ifs at hx with h
    · rcases List.mem_cons.1 hx with rfl | hx
      · exact h
      · exact posInterval_pos x hx
    · exact posInterval_pos x hx

theorem interval_count : ∀ l : List F32, (posIntervals l).length ≤ l.length
  | [] => by simp [posIntervals]
  | [_] => by simp [posIntervals]
  | a :: b :: l => by
    have := interval_count (b :: l)
    rw [posIntervals]
    split_ifs
    · rw [List.length_cons, List.length_cons]; omega
    · rw [List.length_cons]; omega

theorem mean_big {k : ℕ} {l l' : List F32} (h : List.Forall₂ (Vol k (-10) 30) l l') (hp : ∀ x ∈ l, 0 < x) (h0 : l ≠ [])
    (hl : l.length ≤ 2 ^ 12) : EPS < mean l := by
  obtain ⟨x, t, rfl⟩ := List.exists_cons_of_ne_nil h0
  have hm := vol_mags h
  have hs : x ≤ F32.sum (x :: t) := F32.le_sum (fun y hy => (hm y hy).1) (by simp)
  obtain ⟨s, hs1, hs2, es, -, s0, sl, -⟩ := vol_sum_small h (b := 12) (by norm_num) hl (by norm_num) (by norm_num) (by norm_num)
  have s1 : s ≠ 0 := by
    rintro rfl
    rw [es, ← zero_def] at hs
    exact absurd (F32.lt_of_lt_of_le (hp x (by simp)) hs) (F32.lt_irrefl _)
  have hn : (0 : ℚ) < ((x :: t).length : ℕ) := by rw [List.length_cons]; positivity
  unfold mean
  rw [es, ofNat_exact (hl.trans (by norm_num)), div_fin hn.ne']
  refine F32.lt_of_lt_of_le (b := rnd (pow2 (-22))) (by decide +kernel) ?_
  rw [rnd_val (pow2_grid (by omega) (by omega))]
  refine fin_le_rnd ?_
  rw [le_div_iff₀ hn]
  have : pow2 (-22) * ((x :: t).length : ℕ) ≤ pow2 (-22) * pow2 12 := by
    refine mul_le_mul_of_nonneg_left ?_ (pow2_pos _).le
    rw [show (12 : ℤ) = ((12 : ℕ) : ℤ) from rfl, pow2_nat]
    exact_mod_cast hl
  rw [← pow2_add] at this
  exact this.trans (sl.resolve_left s1)

/-- the deviation, relative to the mean -/
theorem vol_deviation {k : ℕ} {l l' : List F32} (h : List.Forall₂ (Vol k (-10) 30) l l') (hp : ∀ x ∈ l, 0 < x) (h0 : l ≠ [])
    (hl : l.length ≤ 2 ^ 12) :
    F32.sqrt (variance l' (mean l')) / mean l' = F32.sqrt (variance l (mean l)) / mean l := by
  have hm := vol_mean h h0 hl
  have hE := mean_big h hp h0 hl
  have hm0 : 0 < mean l := F32.lt_trans (by decide +kernel) hE
  have hsq : List.Forall₂ (Vol (k + k) (-90) 84) (l.map (fun x => (x - mean l) * (x - mean l)))
      (l'.map (fun x => (x - mean l') * (x - mean l'))) := by
    generalize mean l = m at hm hm0
    generalize mean l' = m' at hm
    clear hE h0 hl
    induction h with
    | nil => exact .nil
    | cons h1 _ ih =>
      exact .cons (vol_sqdiff (h1.weaken (by norm_num) (by norm_num)) hm (hp _ (by simp)) hm0) (ih fun x hx => hp x (by simp [hx]))
  have hlen : (l.map (fun x => (x - mean l) * (x - mean l))).length ≤ 2 ^ 12 := by rw [List.length_map]; exact hl
  have hv : Vol (k + k) (-102) 96 (variance l (mean l)) (variance l' (mean l')) := by
    unfold variance
    rw [← h.length_eq]
    exact (vol_sum_small hsq (b := 12) (by norm_num) hlen (by norm_num) (by norm_num) (by norm_num)).div_small (b := 12)
      (List.length_pos_of_ne_nil h0) hl (by norm_num) (by norm_num) (by norm_num) (by norm_num) (by norm_num)
  have hd := Vol.sqrt (lo := -51) (hi := 48) hv (by norm_num) (by norm_num) (by norm_num)
  exact gain_quotient (pow2_pos (k : ℤ)) hd.gain hm.gain hm0

/-! ### Time signature and stability -/

theorem vol_get {k : ℕ} {lo hi : ℤ} {l l' : List F32} (h : List.Forall₂ (Vol k lo hi) l l') (i : ℕ) :
    Vol k lo hi (l.getD i 0) (l'.getD i 0) := by
  induction h generalizing i with
  | nil => exact vol_zero _ _ _
  | cons h1 _ ih =>
    cases i with
    | zero => exact h1
    | succ i => exact ih i

theorem slower_score {k : ℕ} {l l' : List F32} (h : List.Forall₂ (Vol k (-10) 30) l l') (hp : ∀ x ∈ l, 0 < x) (h0 : l ≠ [])
    (hl : l.length ≤ 2 ^ 12) (lag : ℕ) : scoreSig l' lag (mean l') = scoreSig l lag (mean l) := by
  have hm := vol_mean h h0 hl
  have hE := mean_big h hp h0 hl
  have hm0 : 0 < mean l := F32.lt_trans (by decide +kernel) hE
  have hd := vol_deviation h hp h0 hl
  have hsim : ∀ i, (l'.getD i 0 - l'.getD (i + lag) 0).abs / mean l' = (l.getD i 0 - l.getD (i + lag) 0).abs / mean l := by
    intro i
    exact gain_quotient (pow2_pos (k : ℤ)) (gain_absolute (pow2_pos _) (gain_sub (vol_get h i) (vol_get h (i + lag)) (by norm_num) (by norm_num)))
      hm.gain hm0
  unfold scoreSig
  rw [← h.length_eq]
  simp only [hsim, hd, if_pos hE, if_pos (F32.lt_of_lt_of_le hE (vol_le hm))]

/-- **C131: a piece played slower has the same time signature**, with the same confidence. -/
theorem C131_signature {k : ℕ} (hk : k ≤ 10) {beats : List F32} {bpm bpm' : F32} (ht : BeatTimes beats) (hs : Spaced beats)
    (hn : beats.length ≤ 2 ^ 12) (hb : EPS < bpm) (hb' : EPS < bpm') :
    timeSignature (beats.map (slower k)) bpm' = timeSignature beats bpm := by
  have hiv := vol_intervals hk ht hs
  have hp : ∀ x ∈ posIntervals beats, 0 < x := posInterval_pos
  have hl : (posIntervals beats).length ≤ 2 ^ 12 := (interval_count beats).trans hn
  have he : posIntervals (beats.map (slower k)) = [] ↔ posIntervals beats = [] := by
    rw [← List.length_eq_zero_iff, ← hiv.length_eq, List.length_eq_zero_iff]
  unfold timeSignature
  rw [List.length_map, if_neg (F32.not_le_of_lt hb), if_neg (F32.not_le_of_lt hb')]
  dsimp only
  by_cases h0 : posIntervals beats = []
  · rw [if_pos h0, if_pos (he.2 h0)]
  · rw [if_neg h0, if_neg (fun h => h0 (he.1 h)), slower_score hiv hp h0 hl, slower_score hiv hp h0 hl, slower_score hiv hp h0 hl]

/-- **C131: a piece played slower has the same grid stability.** -/
theorem C131_stability {k : ℕ} (hk : k ≤ 10) {beats : List BeatPos} {bpm bpm' : F32} (ht : BeatTimes (beats.map BeatPos.time))
    (hs : Spaced (beats.map BeatPos.time)) (hn : beats.length ≤ 2 ^ 12) (hb : 0 < bpm) (hb' : 0 < bpm') :
    stability (beats.map (fun b => { b with time := slower k b.time })) bpm' = stability beats bpm := by
  have hiv := vol_intervals hk ht hs
  have hp : ∀ x ∈ posIntervals (beats.map BeatPos.time), 0 < x := posInterval_pos
  have hl : (posIntervals (beats.map BeatPos.time)).length ≤ 2 ^ 12 := (interval_count _).trans (by rw [List.length_map]; exact hn)
  have he : posIntervals ((beats.map BeatPos.time).map (slower k)) = [] ↔ posIntervals (beats.map BeatPos.time) = [] := by
    rw [← List.length_eq_zero_iff, ← hiv.length_eq, List.length_eq_zero_iff]
  have hmap : (beats.map (fun b => ({ b with time := slower k b.time } : BeatPos))).map BeatPos.time =
      (beats.map BeatPos.time).map (slower k) := by
    rw [List.map_map, List.map_map]; rfl
  unfold stability
  rw [hmap, List.length_map, if_neg (F32.not_le_of_lt hb), if_neg (F32.not_le_of_lt hb')]
  dsimp only
  by_cases h0 : posIntervals (beats.map BeatPos.time) = []
  · rw [if_pos h0, if_pos (he.2 h0)]
  · have hE := mean_big hiv hp h0 hl
    rw [if_neg h0, if_neg (fun h => h0 (he.1 h)), if_neg (F32.not_le_of_lt hE),
      if_neg (F32.not_le_of_lt (F32.lt_of_lt_of_le hE (vol_le (vol_mean hiv h0 hl)))), vol_deviation hiv hp h0 hl]

/-! ### Bars -/

theorem Vol.add {k : ℕ} {lo lo' hi : ℤ} {a a' x y : F32} (h : Vol k lo hi a a') (h' : Vol k lo' hi x y)
    (h2 : -149 ≤ hi) (h3 : hi + 1 ≤ 127) : Vol k (-149) (hi + 1) (a + x) (a' + y) := by
  have hk := pow2_pos (k : ℤ)
  obtain ⟨v, hv, hw, rfl, rfl, v0, vl, vh⟩ := h
  obtain ⟨w, hv', hw', rfl, rfl, w0, wl, wh⟩ := h'
  rw [add_fin, add_fin]
  have e1 : pow2 k * v + pow2 k * w = pow2 k * (v + w) := by ring
  have hb : pow2 k * (v + w) ≤ pow2 (hi + 1) := by
    rw [← e1, pow2_add, show pow2 1 = 2 by rw [pow2_eq]; norm_num]; linarith
  have q0 : 0 ≤ v + w := by linarith
  rw [e1]
  refine vol_rnd q0 ?_ hb (by norm_num) (by norm_num) (by omega) h3 (rndQ_scale_add hv.1 hv'.1 (by positivity))
  rcases grid_lower hv.1 v0 with rfl | h1
  · rcases grid_lower hv'.1 w0 with rfl | h2
    · left; ring
    · right; linarith
  · right; linarith

/-- a beat is a downbeat of the slower piece exactly when it is one of the faster -/
theorem slower_downbeatsFrom {k : ℕ} (hk : k ≤ 10) {bar bar' tol tol' : F32} (hb : Vol k (-149) 30 bar bar')
    (ht : GainOf (pow2 k) tol tol') : ∀ {l : List F32} {d : F32}, BeatTimes l → (0 ≤ d ∧ d ≤ rnd (pow2 20)) →
    downbeatsFrom bar' tol' (slower k d) (l.map (slower k)) = (downbeatsFrom bar tol d l).map (slower k) := by
  intro l
  induction l with
  | nil => intros; rfl
  | cons b l ih =>
    intro d hl hd
    rw [List.map_cons, downbeatsFrom, downbeatsFrom]
    have hsum := (slower_vol hk hd).add hb (by norm_num) (by norm_num)
    have hdiff := gain_absolute (pow2_pos (k : ℤ)) (gain_sub ((slower_vol hk (hl b (by simp))).weaken (lo' := -149) (hi' := 31) (by norm_num) (by norm_num)) hsum
      (by norm_num) (by norm_num))
    have hiff := gain_le (pow2_pos (k : ℤ)) hdiff ht
    have hl' : BeatTimes l := fun t h => hl t (by simp [h])
    by_cases h : (b - (d + bar)).abs ≤ tol
    · rw [if_pos h, if_pos (hiff.1 h), List.map_cons, ih hl' (hl b (by simp))]
    · rw [if_neg h, if_neg (fun h' => h (hiff.2 h')), ih hl' hd]

theorem lit1000 : ∃ h, (1000 : F32) = fin 1000 h := ⟨by decide +kernel, by decide +kernel⟩
theorem lit1 : ∃ h, (1 : F32) = fin 1 h := ⟨by decide +kernel, by decide +kernel⟩

/-- the length of a beat -/
theorem slower_beat {k : ℕ} (hk : k ≤ 10) {bpm : F32} (h1 : 1 ≤ bpm) (h2 : bpm ≤ 1000) :
    Vol k (-20) 10 (60 / slower k bpm) (60 / bpm) := by
  have hkp := pow2_pos (k : ℤ)
  have h3 : (0 : F32) ≤ bpm := F32.le_trans (by decide +kernel) h1
  have h4 : bpm ≤ rnd (pow2 20) := F32.le_trans h2 (by decide +kernel)
  obtain ⟨q, hq, hq', e, e', q0, -, -⟩ := slower_vol hk ⟨h3, h4⟩
  obtain ⟨g1, l1⟩ := lit1
  obtain ⟨g1000, l1000⟩ := lit1000
  obtain ⟨g60, h60⟩ := lit60
  have q1 : 1 ≤ q := by rw [e, l1] at h1; exact fin_le_fin.1 h1
  have q2 : q ≤ 1000 := by rw [e, l1000] at h2; exact fin_le_fin.1 h2
  have hqp : 0 < q := by linarith
  have hkq : 0 < pow2 k * q := _root_.mul_pos hkp hqp
  have e2 : (60 : ℚ) / q = pow2 k * (60 / (pow2 k * q)) := by field_simp
  have hk10 : pow2 k ≤ 1024 := by
    have := pow2_le' (show (k : ℤ) ≤ 10 by exact_mod_cast hk)
    rwa [show pow2 10 = 1024 by rw [pow2_eq]; norm_num] at this
  have hlo : pow2 (-20) ≤ 60 / (pow2 k * q) := by
    rw [le_div_iff₀ hkq, show pow2 (-20) = 1 / 1048576 by rw [pow2_eq]; norm_num]
    have : pow2 k * q ≤ 1024 * 1000 := mul_le_mul hk10 q2 q0 (by norm_num)
    linarith
  have hhi : pow2 k * (60 / (pow2 k * q)) ≤ pow2 10 := by
    rw [← e2, div_le_iff₀ hqp, show pow2 10 = 1024 by rw [pow2_eq]; norm_num]; linarith
  have p0 : 0 ≤ 60 / (pow2 k * q) := (pow2_pos _).le.trans hlo
  have hs : rndQ (pow2 k * (60 / (pow2 k * q))) = pow2 k * rndQ (60 / (pow2 k * q)) :=
    rndQ_scale (by rw [abs_of_nonneg p0]; exact (pow2_le' (by norm_num)).trans hlo) (by positivity)
  have := vol_rnd p0 (.inr hlo) hhi (by norm_num) (by norm_num) (by norm_num) (by norm_num) hs
  rw [← e2] at this
  rw [e', e, h60, div_fin hkq.ne', div_fin hqp.ne']
  exact this

theorem beats_const (sig : TimeSig) : Vol 0 0 10 (F32.ofNat sig.beatsPerBar) (F32.ofNat sig.beatsPerBar) := by
  have hle : sig.beatsPerBar ≤ 2 ^ 24 := by cases sig <;> norm_num [TimeSig.beatsPerBar]
  have c1 : pow2 0 ≤ ((sig.beatsPerBar : ℕ) : ℚ) := by
    rw [show pow2 0 = 1 by rw [pow2_eq]; norm_num]; cases sig <;> norm_num [TimeSig.beatsPerBar]
  have c2 : ((sig.beatsPerBar : ℕ) : ℚ) ≤ pow2 10 := by
    rw [show pow2 10 = 1024 by rw [pow2_eq]; norm_num]; cases sig <;> norm_num [TimeSig.beatsPerBar]
  have e0 : pow2 ((0 : ℕ) : ℤ) * ((sig.beatsPerBar : ℕ) : ℚ) = (sig.beatsPerBar : ℕ) := by rw [pow2_nat]; ring
  rw [ofNat_exact hle]
  exact ⟨_, grid_nat hle, by rw [e0]; exact grid_nat hle, rfl, by congr 1; exact e0.symm, (pow2_pos _).le.trans c1, .inr c1,
    by rw [e0]; exact c2⟩

/-- the length of a bar -/
theorem slower_bar {k : ℕ} (hk : k ≤ 10) {bpm : F32} (h1 : 1 ≤ bpm) (h2 : bpm ≤ 1000) (sig : TimeSig) :
    Vol k (-20) 20 (60 / slower k bpm * F32.ofNat sig.beatsPerBar) (60 / bpm * F32.ofNat sig.beatsPerBar) := by
  have := (slower_beat hk h1 h2).mul (beats_const sig) (by norm_num) (by norm_num) (by norm_num) (by norm_num)
  norm_num at this
  exact this

/-- the same grid, slower -/
def slowerGrid (k : ℕ) (g : Grid) : Grid := ⟨g.downbeats.map (slower k), g.beats.map (slower k), g.bars.map (slower k)⟩

/-- **C131: the bars of a slower piece start at the same beats.** `bpm` is the slower tempo, `2^k bpm` the faster. -/
theorem C131_bars {k : ℕ} (hk : k ≤ 10) {beats : List BeatPos} {bpm : F32} {sig : TimeSig} {g : Grid}
    (ht : BeatTimes (beats.map BeatPos.time)) (h1 : 1 ≤ bpm) (h2 : bpm ≤ 1000)
    (h : gridOf beats (slower k bpm) sig = .ok g) :
    gridOf (beats.map (fun b => { b with time := slower k b.time })) bpm sig = .ok (slowerGrid k g) := by
  have hmap : (beats.map (fun b => ({ b with time := slower k b.time } : BeatPos))).map BeatPos.time =
      (beats.map BeatPos.time).map (slower k) := by
    rw [List.map_map, List.map_map]; rfl
  unfold gridOf at h ⊢
  rw [hmap]
  generalize hT : beats.map BeatPos.time = T at ht h ⊢
  by_cases h0 : beats = []
  · rw [if_pos h0] at h; cases h
  rw [if_neg h0] at h
  rw [if_neg (by rw [List.map_eq_nil_iff]; exact h0)]
  have hV : ∀ t ∈ T, GainOf (pow2 k) t (slower k t) := fun t h => (slower_vol hk (ht t h)).gain
  have hsort : sortAsc id (T.map (slower k)) = (sortAsc id T).map (slower k) := by
    have hF : List.Forall₂ (fun x y => y = slower k x ∧ GainOf (pow2 k) x y) T (T.map (slower k)) := by
      rw [List.forall₂_map_right_iff, List.forall₂_same]; exact fun t h => ⟨rfl, hV t h⟩
    have hS : List.Forall₂ (fun x y => y = slower k x ∧ GainOf (pow2 k) x y) (sortAsc id T) (sortAsc id (T.map (slower k))) := by
      unfold sortAsc rsort
      clear h ht hT hV
      generalize T.map (slower k) = T' at hF
      induction hF with
      | nil => exact .nil
      | cons ha _ ih =>
        refine insertBy_rel (r := fun x y => y = slower k x ∧ GainOf (pow2 k) x y) (fun a b a' b' e1 e2 => ?_) ha ih
        have l4 := gain_lt (pow2_pos (k : ℤ)) e2.2 e1.2
        simp only [id_eq, l4]
    generalize sortAsc id T = A at hS
    generalize sortAsc id (T.map (slower k)) = B at hS
    clear h
    induction hS with
    | nil => rfl
    | cons ha _ ih => rw [List.map_cons, ih, ha.1]
  have nn : ∀ (l : List F32), (∀ t ∈ l, t.isNaN = false) → sortAscP id l = .ok (sortAsc id l) := by
    intro l hl
    unfold sortAscP
    rw [if_neg]
    unfold sortMeetsNaN
    rw [Bool.and_eq_true, List.any_eq_true]
    rintro ⟨-, t, ht, h⟩
    rw [id_eq, hl t ht] at h
    cases h
  have hT1 : ∀ t ∈ T, t.isNaN = false := by
    intro t h
    obtain ⟨v, hv, hw, e, -⟩ := hV t h
    rw [e]; rfl
  have hT2 : ∀ t ∈ T.map (slower k), t.isNaN = false := by
    intro t h
    obtain ⟨u, hu, rfl⟩ := List.mem_map.1 h
    obtain ⟨v, hv, hw, -, e⟩ := hV u hu
    rw [e]; rfl
  rw [nn _ hT1, R.ok_bind] at h
  rw [nn _ hT2, R.ok_bind, hsort]
  have hA : BeatTimes (sortAsc id T) := fun t h => ht t ((rsort_perm _).mem_iff.1 h)
  generalize sortAsc id T = A at h hA ⊢
  obtain ⟨d, hd, h⟩ := R.bind_eq_ok.1 h
  cases h
  have hpos : ∀ x : F32, (1 : F32) ≤ x → ¬ x ≤ 0 := fun x h h' => absurd (F32.le_trans h h') (by decide +kernel)
  have hpos' : ¬ slower k bpm ≤ 0 := by
    have := vol_le (slower_vol hk (t := bpm) ⟨F32.le_trans (by decide +kernel) h1, F32.le_trans h2 (by decide +kernel)⟩)
    exact hpos _ (F32.le_trans h1 this)
  have hd' : downbeats (A.map (slower k)) bpm sig = .ok (d.map (slower k)) := by
    cases A with
    | nil => cases hd; rfl
    | cons b l =>
      unfold downbeats at hd ⊢
      rw [List.map_cons]
      dsimp only at hd ⊢
      rw [if_neg hpos'] at hd
      rw [if_neg (hpos _ h1)]
      cases hd
      have hbar := slower_bar hk h1 h2 sig
      have htol : ∃ c hc, (0.1 : F32) = fin c hc ∧ pow2 (-4) ≤ c ∧ c ≤ pow2 0 := by
        refine ⟨rndQ (1 / 10), by decide +kernel, by decide +kernel, by decide +kernel, by decide +kernel⟩
      obtain ⟨c, hc, ec, c1, c2⟩ := htol
      have e0 : pow2 ((0 : ℕ) : ℤ) * c = c := by rw [pow2_nat]; ring
      have hVc : Vol 0 (-4) 0 (fin c hc) (fin c hc) :=
        ⟨c, hc, by rw [e0]; exact hc, rfl, by congr 1; exact e0.symm, (pow2_pos _).le.trans c1, .inr c1, by rw [e0]; exact c2⟩
      have ht2 := (hbar.mul hVc (by norm_num) (by norm_num) (by norm_num) (by norm_num)).gain
      rw [← ec] at ht2
      rw [List.map_cons, slower_downbeatsFrom hk (hbar.weaken (by norm_num) (by norm_num)) ht2 (fun t h => hA t (by simp [h])) (hA b (by simp))]
  rw [hd', R.ok_bind]
  rfl

instance decSpaced : (l : List F32) → Decidable (Spaced l)
  | [] => isTrue trivial
  | [_] => isTrue trivial
  | a :: b :: l => by
    have := decSpaced (b :: l)
    unfold Spaced
    infer_instance

instance (l : List F32) : Decidable (BeatTimes l) := by unfold BeatTimes; infer_instance

/-- a limping rhythm: long and short beats -/
def limping : List F32 := [0, 1, 1.5, 2.5, 3, 4, 4.5, 5.5, 6]

/-- the same as beat positions -/
def limpingBeats : List BeatPos := limping.map (fun t => ⟨t, 1⟩)

/-- at half the tempo: the hypotheses hold and the answers are not trivial -/
example : BeatTimes limping ∧ Spaced limping ∧ limping.map (slower 1) = [0, 2, 3, 5, 6, 8, 9, 11, 12] ∧
    (∃ c : F32, timeSignature limping 80 = .ok (.sixEight, c) ∧ timeSignature (limping.map (slower 1)) 40 = .ok (.sixEight, c)) ∧
    (∃ c : F32, stability limpingBeats 80 = .ok c ∧ c < 0.8 ∧
      stability (limpingBeats.map (fun b => ({ b with time := slower 1 b.time } : BeatPos))) 40 = .ok c) ∧
    (gridOf limpingBeats (slower 1 40) .fourFour = .ok ⟨[0, 3, 6], limping, [0, 3, 6]⟩ ∧
      gridOf (limpingBeats.map (fun b => ({ b with time := slower 1 b.time } : BeatPos))) 40 .fourFour =
        .ok (slowerGrid 1 ⟨[0, 3, 6], limping, [0, 3, 6]⟩)) := by
  have ht : BeatTimes limping := by decide +kernel
  have hs : Spaced limping := by decide +kernel
  have hmap : limpingBeats.map BeatPos.time = limping := by decide +kernel
  refine ⟨ht, hs, by decide +kernel, ?_, ?_, ?_⟩
  · have h1 : ∃ c : F32, timeSignature limping 80 = .ok (.sixEight, c) := by
      refine ⟨scoreSig (posIntervals limping) 6 (mean (posIntervals limping)), by decide +kernel⟩
    obtain ⟨c, h1⟩ := h1
    exact ⟨c, h1, by rw [C131_signature (by norm_num) ht hs (by decide) (bpm := 80) (by decide +kernel) (by decide +kernel), h1]⟩
  · have h1 : ∃ c : F32, stability limpingBeats 80 = .ok c ∧ c < 0.8 :=
      ⟨1 / (1 + F32.sqrt (variance (posIntervals limping) (mean (posIntervals limping))) / mean (posIntervals limping)), by decide +kernel, by decide +kernel⟩
    obtain ⟨c, h1, h2⟩ := h1
    exact ⟨c, h1, h2, by
      rw [C131_stability (by norm_num) (by rw [hmap]; exact ht) (by rw [hmap]; exact hs) (by decide) (bpm := 80) (by decide +kernel) (by decide +kernel), h1]⟩
  · have h1 : gridOf limpingBeats (slower 1 40) .fourFour = .ok ⟨[0, 3, 6], limping, [0, 3, 6]⟩ := by decide +kernel
    exact ⟨h1, C131_bars (by norm_num) (by rw [hmap]; exact ht) (by decide +kernel) (by decide +kernel) h1⟩

end Verif.Props
