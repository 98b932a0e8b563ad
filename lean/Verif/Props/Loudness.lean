/-
Property theorems for claim C94: the loudness measurement (`calculate_lufs`, src/preprocessing/normalization.rs lines
185-259).
-/
import Verif.Props.Normalization

namespace Verif.Props
open Verif Verif.Norm F32

/-! ### Specification -/

/-- the samples that the `k`-th of the consecutive blocks of `b` samples covers -/
def blockAt (b : ℕ) (x : List F32) (k : ℕ) : List F32 := (x.drop (k * b)).take b

/-- mean of the squares -/
def powerOf (x : List F32) : F32 := F32.sum (x.map (fun v => v * v)) / F32.ofNat x.length

/-- the powers of the blocks that are above the threshold, in order; `⌈n / b⌉` blocks cover the signal -/
def loudPowers (g : F32) (b : ℕ) (x : List F32) : List F32 :=
  ((List.range ((x.length + b - 1) / b)).map (fun k => powerOf (blockAt b x k))).filter (fun e => decide (g < e))

/-- what is assumed of the library functions: powers of ten of numbers are numbers, -70 LUFS is at least `2^-24`, logarithms
of positive numbers are numbers -/
structure LufsLib (M : Libm) : Prop where
  pow : ∀ y : F32, y ≠ nan → M.powf 10 y ≠ nan
  gate : rnd (pow2 (-24)) ≤ M.powf 10 ((-70 + 0.691) / 10)
  log : ∀ x : F32, 0 < x → M.log10 x ≠ nan

/-! ### Lemmas -/

theorem grid_units {n : ℕ} (hn : n ≤ 2 ^ 24) : OnGrid ((n : ℚ) * pow2 (-24)) ∧ |(n : ℚ) * pow2 (-24)| < pow2 128 := by
  refine ⟨?_, ?_⟩
  · have := onGrid_of_scaled (m := n) (e := -24) (by rw [Nat.abs_cast]; exact_mod_cast hn) (by norm_num)
    simpa using this
  · rw [abs_of_nonneg (mul_nonneg (by positivity) (pow2_pos _).le)]
    have e : (2 : ℚ) ^ 24 * pow2 (-24) = 1 := by rw [pow2_eq]; norm_num
    have e' : (1 : ℚ) < pow2 128 := by rw [pow2_eq]; norm_num
    exact lt_of_le_of_lt ((mul_le_mul_of_nonneg_right (by exact_mod_cast hn) (pow2_pos _).le).trans e.le) e'

theorem sum_lower {l : List F32} (h : ∀ x ∈ l, rnd (pow2 (-24)) ≤ x) (hl : l.length ≤ 2 ^ 24) :
    rnd ((l.length : ℚ) * pow2 (-24)) ≤ F32.sum l := by
  have key : ∀ (l : List F32) (k : ℕ) (a : F32), (∀ x ∈ l, rnd (pow2 (-24)) ≤ x) → k + l.length ≤ 2 ^ 24 →
      rnd ((k : ℚ) * pow2 (-24)) ≤ a → rnd (((k + l.length : ℕ) : ℚ) * pow2 (-24)) ≤ l.foldl (· + ·) a := by
    intro l
    induction l with
    | nil => intro k a _ _ h; exact h
    | cons x l ih =>
      intro k a h hk ha
      rw [List.foldl_cons]
      have e : k + (x :: l).length = (k + 1) + l.length := by simp; omega
      rw [e]
      refine ih (k + 1) _ (fun y hy => h y (by simp [hy])) (by simp at hk; omega) ?_
      have hx := h x (by simp)
      have gk : ∀ n : ℕ, n ≤ 2 ^ 24 → ∃ g, rnd ((n : ℚ) * pow2 (-24)) = fin ((n : ℚ) * pow2 (-24)) g := by
        intro n hn
        have hg := grid_units hn
        exact ⟨hg, rnd_val hg⟩
      obtain ⟨g1, e1⟩ := gk k (by omega)
      obtain ⟨g2, e2⟩ := gk 1 (by norm_num)
      have e2' : rnd (pow2 (-24)) = fin (((1 : ℕ) : ℚ) * pow2 (-24)) g2 := by rw [← e2]; norm_num
      have hs : rnd (((k + 1 : ℕ) : ℚ) * pow2 (-24)) = rnd ((k : ℚ) * pow2 (-24)) + rnd (pow2 (-24)) := by
        rw [e1, e2', add_fin]; congr 1; push_cast; ring
      rw [hs]
      refine F32.add_le_add ha hx (by rw [e1, e2', add_fin]; exact rnd_ne_nan _) ?_
      have h1 : (0 : F32) ≤ rnd ((k : ℚ) * pow2 (-24)) := rnd_nonneg (mul_nonneg (by positivity) (pow2_pos _).le)
      have h2 : (0 : F32) ≤ rnd (pow2 (-24)) := rnd_nonneg (pow2_pos _).le
      exact ne_nan_right (F32.add_nonneg (F32.le_trans h1 ha) (F32.le_trans h2 hx))
  have := key l 0 0 h (by omega) (by decide +kernel)
  rwa [Nat.zero_add] at this

theorem mean_lower {l : List F32} (h : ∀ x ∈ l, rnd (pow2 (-24)) ≤ x) (hne : l ≠ []) (hl : l.length ≤ 2 ^ 24) :
    rnd (pow2 (-24)) ≤ F32.sum l / F32.ofNat l.length := by
  have hs := sum_lower h hl
  have hpos : 0 < l.length := List.length_pos_iff.2 hne
  have hq : (0 : ℚ) < (l.length : ℚ) := by exact_mod_cast hpos
  rw [ofNat_exact hl]
  have h0 : (0 : F32) ≤ F32.sum l :=
    F32.le_trans (rnd_nonneg (mul_nonneg (by positivity) (pow2_pos _).le)) hs
  rcases nonneg_cases h0 with e | ⟨v, hv, e, v0⟩
  · rw [e, inf_div_fin]
    have : decide ((l.length : ℚ) < 0) = false := decide_eq_false (not_lt.2 hq.le)
    rw [this]; decide +kernel
  · rw [e, div_fin hq.ne']
    refine rnd_mono ?_
    rw [le_div_iff₀ hq]
    rw [e] at hs
    have hb := grid_units hl
    rw [rnd_val hb, fin_le_fin] at hs
    linarith [hs, _root_.mul_comm (l.length : ℚ) (pow2 (-24))]

theorem run_length (f : KFilter) (x : List F32) : (f.run x).length = x.length := by
  induction x generalizing f with
  | nil => rfl
  | cons s x ih => simp only [KFilter.run, List.length_cons, ih]

/-- the number of samples of a 400 ms block -/
theorem block_size {sr : ℕ} (h : 1000 ≤ sr) (h' : sr ≤ 2 ^ 20) :
    2 * sr ≤ 5 * (F32.ofNat sr * 400 / 1000).toUsize + 10 ∧ 5 * (F32.ofNat sr * 400 / 1000).toUsize ≤ 2 * sr + 5 := by
  obtain ⟨g4, e4⟩ : ∃ g, (400 : F32) = fin 400 g := ⟨by decide +kernel, by decide +kernel⟩
  obtain ⟨gk, ek⟩ : ∃ g, (1000 : F32) = fin 1000 g := ⟨by decide +kernel, by decide +kernel⟩
  have hq : (1000 : ℚ) ≤ sr := by exact_mod_cast h
  have hq' : (sr : ℚ) ≤ 2 ^ 20 := by exact_mod_cast h'
  rw [ofNat_exact (by omega), e4, mul_fin]
  have p1 : |(sr : ℚ) * 400| = sr * 400 := abs_of_nonneg (by positivity)
  have g60 : OnGrid (pow2 60) ∧ |pow2 60| < pow2 128 :=
    ⟨onGrid_pow2 (by norm_num), by rw [abs_of_pos (pow2_pos _)]; exact pow2_lt (by norm_num)⟩
  have e60 : pow2 60 = 2 ^ 60 := by rw [pow2_eq]; norm_num
  have e24 : pow2 (-24) = 1 / 2 ^ 24 := by rw [pow2_eq]; norm_num
  have e126 : pow2 (-126) ≤ 1 := by rw [pow2_eq]; norm_num
  obtain ⟨h1, r1, -⟩ := rnd_finite_of_abs_le g60 (q := (sr : ℚ) * 400) (by rw [p1, e60]; linarith)
  have d1 := abs_le.1 (abs_rndQ_sub_le_rel (q := (sr : ℚ) * 400) (by rw [p1]; linarith))
  rw [p1, e24] at d1
  rw [r1, ek, div_fin (by norm_num)]
  generalize rndQ ((sr : ℚ) * 400) = u at *
  have u0 : (399 * 1000 : ℚ) ≤ u := by linarith [d1.1]
  have u1 : u ≤ 2 ^ 30 := by linarith [d1.2]
  have p2 : |u / 1000| = u / 1000 := abs_of_nonneg (by linarith)
  obtain ⟨h2, r2, -⟩ := rnd_finite_of_abs_le g60 (q := u / 1000) (by rw [p2, e60]; linarith)
  have d2 := abs_le.1 (abs_rndQ_sub_le_rel (q := u / 1000) (by rw [p2]; linarith))
  rw [p2, e24] at d2
  rw [r2]
  generalize rndQ (u / 1000) = v at *
  have v0 : (sr : ℚ) * 2 / 5 - 1 ≤ v := by linarith [d1.1, d2.1]
  have v1 : v ≤ (sr : ℚ) * 2 / 5 + 1 := by linarith [d1.2, d2.2]
  have f1 := Int.floor_le v
  have f2 := Int.lt_floor_add_one v
  have fn : 0 ≤ ⌊v⌋ := Int.floor_nonneg.2 (by linarith)
  have fu : ⌊v⌋.toNat ≤ usizeMax := by
    have : ⌊v⌋ ≤ 2 ^ 32 := Int.floor_le_iff.2 (by push_cast; linarith)
    unfold usizeMax; omega
  show 2 * sr ≤ 5 * Nat.min ⌊v⌋.toNat usizeMax + 10 ∧ 5 * Nat.min ⌊v⌋.toNat usizeMax ≤ 2 * sr + 5
  rw [show Nat.min ⌊v⌋.toNat usizeMax = ⌊v⌋.toNat from Nat.min_eq_left fu]
  obtain ⟨n, hn⟩ := Int.eq_ofNat_of_zero_le fn
  rw [hn, Int.toNat_natCast]
  rw [hn] at f1 f2
  push_cast at f1 f2
  constructor
  · have : (2 * sr : ℚ) ≤ 5 * n + 10 := by linarith
    exact_mod_cast this
  · have : (5 * n : ℚ) ≤ 2 * sr + 5 := by linarith
    exact_mod_cast this

theorem toUsize_ge {n : ℕ} {hn} {x : F32} (h : fin (n : ℚ) hn ≤ x) (hu : n ≤ usizeMax) : n ≤ x.toUsize := by
  rcases x with _ | (_ | _) | ⟨v, hv⟩
  · simp at h
  · exact hu
  · simp at h
  · rw [fin_le_fin] at h
    have : (n : ℤ) ≤ ⌊v⌋ := Int.le_floor.2 (by exact_mod_cast h)
    show n ≤ Nat.min ⌊v⌋.toNat usizeMax
    exact Nat.le_min.2 ⟨by omega, hu⟩

theorem block_ge {sr : ℕ} (h : 1000 ≤ sr) : 400 ≤ (F32.ofNat sr * 400 / 1000).toUsize := by
  obtain ⟨g4, e4⟩ : ∃ g, (400 : F32) = fin ((400 : ℕ) : ℚ) g := ⟨by decide +kernel, by decide +kernel⟩
  have pos : ∀ {a : F32}, 0 ≤ a → a * 400 ≠ nan ∧ a / 1000 ≠ nan := by
    intro a ha
    obtain ⟨gk, ek⟩ : ∃ g, (1000 : F32) = fin 1000 g := ⟨by decide +kernel, by decide +kernel⟩
    rcases nonneg_cases ha with rfl | ⟨v, hv, rfl, -⟩
    · decide +kernel
    · rw [e4, ek, mul_fin, div_fin (by norm_num)]; exact ⟨rnd_ne_nan _, rnd_ne_nan _⟩
  have h1 : F32.ofNat 1000 * 400 ≤ F32.ofNat sr * 400 :=
    F32.mul_le_mul_of_nonneg_right (ofNat_mono h) (by decide +kernel) (by decide +kernel) (pos (ofNat_nonneg _)).1
  have h0 : (0 : F32) ≤ F32.ofNat sr * 400 := F32.le_trans (by decide +kernel) h1
  have h2 := F32.div_le_div_right (c := 1000) h1 (by decide +kernel) (by decide +kernel) (pos h0).2
  refine toUsize_ge (hn := g4) ?_ (by decide)
  rw [← e4]
  exact F32.le_trans (by decide +kernel) h2

theorem measured_blocks {b : ℕ} (hb : 0 < b) (x : List F32) :
    (List.range ((x.length + b - 1) / b)).mapM (fun i => (do
        let seg ← slice x (i * b) (Nat.min (i * b + b) x.length)
        pure (meanSq seg) : R F32)) =
      .ok ((List.range ((x.length + b - 1) / b)).map (fun k => powerOf (blockAt b x k))) := by
  apply Silence.mapM_ok
  intro i hi
  have hi' : i < (x.length + b - 1) / b := by simpa using hi
  have := (Nat.lt_div_iff_mul_lt hb).1 hi'
  have h3 : i * b ≤ x.length := by
    have : b * i = i * b := Nat.mul_comm _ _
    omega
  rw [slice_ok (Nat.le_min.2 ⟨Nat.le_add_right _ _, h3⟩) (Nat.min_le_right _ _), R.ok_bind, R.pure_eq_ok]
  have e : (x.drop (i * b)).take (Nat.min (i * b + b) x.length - i * b) = blockAt b x i := by
    unfold blockAt
    rw [List.take_eq_take_iff, List.length_drop]
    have : Nat.min (i * b + b) x.length = min (i * b + b) x.length := rfl
    omega
  rw [e]
  rfl

/-! ### Theorems -/

/-- **C94, the measurement.** For a non-empty signal (at most `2^30` samples) at 1 kHz or more the measurement succeeds: the
filtered signal is cut into blocks of `b` samples (400 ms up to two samples, for rates up to `2^20`); when no block is louder
than -70 LUFS the answer is minus infinity, otherwise it is `-0.691 + 10 log10` of the mean power of the louder blocks, a
number. -/
theorem C94_measurement (M : Libm) (hM : LufsLib M) (x : List F32) (h0 : x ≠ []) (hl : x.length ≤ 2 ^ 30) (sr : ℕ)
    (hsr : 1000 ≤ sr) :
    ∃ (b : ℕ) (y : List F32) (v : F32), 400 ≤ b ∧ (sr ≤ 2 ^ 20 → 2 * sr ≤ 5 * b + 10 ∧ 5 * b ≤ 2 * sr + 5) ∧
      y = (KFilter.new M (F32.ofNat sr)).run x ∧ y.length = x.length ∧ calculateLufs M x (F32.ofNat sr) = .ok v ∧ v ≠ nan ∧
      (loudPowers (M.powf 10 ((-70 + 0.691) / 10)) b y = [] → v = inf true) ∧
      (loudPowers (M.powf 10 ((-70 + 0.691) / 10)) b y ≠ [] →
        v = -0.691 + 10 * M.log10 (F32.sum (loudPowers (M.powf 10 ((-70 + 0.691) / 10)) b y) /
          F32.ofNat (loudPowers (M.powf 10 ((-70 + 0.691) / 10)) b y).length)) := by
  have hb := block_ge hsr
  have hsz := block_size hsr
  have hpos : ¬ F32.ofNat sr ≤ 0 := not_le_of_lt (ofNat_pos (by omega))
  unfold calculateLufs
  rw [if_neg h0, if_neg hpos]
  dsimp only
  generalize (F32.ofNat sr * 400 / 1000).toUsize = b at hb hsz ⊢
  rw [if_neg (by omega)]
  have hlen : ((KFilter.new M (F32.ofNat sr)).run x).length = x.length := run_length _ _
  have hx : 0 < x.length := List.length_pos_iff.2 h0
  generalize hy : (KFilter.new M (F32.ofNat sr)).run x = y at hlen ⊢
  rw [measured_blocks (by omega) y, R.ok_bind]
  have hn1 : 1 ≤ (y.length + b - 1) / b := (Nat.one_le_div_iff (by omega)).2 (by omega)
  have hn2 : (y.length + b - 1) / b ≤ 2 ^ 24 := by
    refine Nat.div_le_of_le_mul ?_
    rw [hlen]; omega
  rw [if_neg (by rw [List.map_eq_nil_iff, List.range_eq_nil]; omega)]
  have hM3 := hM.log
  have hM2 := hM.gate
  have hlp : loudPowers (M.powf 10 ((-70 + 0.691) / 10)) b y =
    ((List.range ((y.length + b - 1) / b)).map (fun k => powerOf (blockAt b y k))).filter
      (fun e => decide (M.powf 10 ((-70 + 0.691) / 10) < e)) := rfl
  generalize M.powf 10 ((-70 + 0.691) / 10) = g at *
  rw [← hlp]
  have hge : ∀ e ∈ loudPowers g b y, rnd (pow2 (-24)) ≤ e := by
    intro e he
    rw [hlp, List.mem_filter, decide_eq_true_eq] at he
    exact F32.le_trans hM2 (F32.le_of_lt he.2)
  have hcount : (loudPowers g b y).length ≤ 2 ^ 24 := by
    rw [hlp]
    refine (List.length_filter_le _ _).trans ?_
    rw [List.length_map, List.length_range]; exact hn2
  generalize hq : loudPowers g b y = lp at hge hcount ⊢
  by_cases hne : lp = []
  · rw [if_pos hne]
    exact ⟨b, y, negInf, hb, hsz, rfl, hlen, rfl, by decide, fun _ => rfl, fun h => absurd (hq.trans hne) h⟩
  · rw [if_neg hne]
    have hm := mean_lower hge hne hcount
    rw [if_neg (not_le_of_lt (F32.lt_of_lt_of_le (by decide +kernel) hm))]
    refine ⟨b, y, _, hb, hsz, rfl, hlen, rfl, ?_, fun h => absurd (hq.symm.trans h) hne, fun _ => by rw [hq]⟩
    have hlog := hM3 _ (F32.lt_of_lt_of_le (by decide +kernel) hm)
    obtain ⟨g10, e10⟩ : ∃ g, (10 : F32) = fin 10 g := ⟨by decide +kernel, by decide +kernel⟩
    obtain ⟨g6, e6⟩ : ∃ g, (-0.691 : F32) = fin (-0.691 : F32).val g := ⟨by decide +kernel, by decide +kernel⟩
    rw [e10, e6]
    generalize M.log10 _ = t at hlog
    rcases t with _ | s | ⟨t, ht⟩
    · exact absurd rfl hlog
    · rw [fin_mul_inf, if_neg (by norm_num), fin_add_inf]; simp
    · rw [mul_fin]
      have := rnd_ne_nan (10 * t)
      generalize rnd (10 * t) = r at this ⊢
      rcases r with _ | s | ⟨w, hw⟩
      · exact absurd rfl this
      · rw [fin_add_inf]; simp
      · rw [add_fin]; exact rnd_ne_nan _

/-- cosine and sine of a number are in `[-1, 1]` -/
def UnitCircle (M : Libm) : Prop := ∀ w : F32, w.isFinite = true → (M.cos w).abs ≤ 1 ∧ (M.sin w).abs ≤ 1

theorem coeff_finite {a b : ℚ} {ha hb} (h1 : |a| ≤ 4) (h2 : 1 / 4 ≤ b) : (fin a ha / fin b hb).isFinite = true := by
  have hb0 : (0 : ℚ) < b := by linarith
  rw [div_fin hb0.ne']
  have hg : OnGrid (16 : ℚ) ∧ |(16 : ℚ)| < pow2 128 := by decide +kernel
  obtain ⟨h, e, -⟩ := rnd_finite_of_abs_le hg (q := a / b) (by
    rw [_root_.abs_div, abs_of_pos hb0, div_le_iff₀ hb0]; linarith)
  rw [e]; rfl

/-- the filter coefficients are finite at every rate from 1 kHz on -/
theorem filter_finite {M : Libm} (hM : UnitCircle M) {sr : ℕ} (h : 1000 ≤ sr) (h' : sr ≤ 2 ^ 32) :
    (KFilter.new M (F32.ofNat sr)).b0.isFinite = true ∧ (KFilter.new M (F32.ofNat sr)).b1.isFinite = true ∧
    (KFilter.new M (F32.ofNat sr)).b2.isFinite = true ∧ (KFilter.new M (F32.ofNat sr)).a1.isFinite = true ∧
    (KFilter.new M (F32.ofNat sr)).a2.isFinite = true := by
  have hw : (2 * (3.1415927 : F32) * 1681.9745 / F32.ofNat sr).isFinite = true := by
    have hmono : F32.ofNat 1000 ≤ F32.ofNat sr := ofNat_mono h
    obtain ⟨v, hv, e⟩ := isFinite_iff.1 (ofNat_finite (n := sr) (by omega))
    obtain ⟨gk, ek⟩ : ∃ g, F32.ofNat 1000 = fin 1000 g := ⟨by decide +kernel, by decide +kernel⟩
    obtain ⟨gc, ec⟩ : ∃ g, (2 * (3.1415927 : F32) * 1681.9745) = fin (2 * (3.1415927 : F32) * 1681.9745).val g :=
      ⟨by decide +kernel, by decide +kernel⟩
    have hc : |(2 * (3.1415927 : F32) * 1681.9745).val| ≤ 16000 := by decide +kernel
    rw [e, ek, fin_le_fin] at hmono
    have hv0 : (0 : ℚ) < v := by linarith
    rw [e, ec, div_fin hv0.ne']
    have hg : OnGrid (16 : ℚ) ∧ |(16 : ℚ)| < pow2 128 := by decide +kernel
    obtain ⟨h, e, -⟩ := rnd_finite_of_abs_le hg (q := (2 * (3.1415927 : F32) * 1681.9745).val / v) (by
      rw [_root_.abs_div, abs_of_pos hv0, div_le_iff₀ hv0]; linarith)
    rw [e]; rfl
  obtain ⟨hc, hs⟩ := hM _ hw
  unfold KFilter.new
  dsimp only
  generalize M.cos _ = c at *
  generalize M.sin _ = s at *
  have cases1 : ∀ {x : F32}, x.abs ≤ 1 → ∃ v hv, x = fin v hv ∧ |v| ≤ 1 := by
    intro x hx
    have hn : x ≠ nan := by rintro rfl; exact ne_nan_left hx rfl
    have hf : x.abs.isFinite = true := isFinite_of_between (lo := 0) (by decide +kernel) (by decide +kernel) (F32.abs_nonneg hn) hx
    rw [isFinite_abs] at hf
    obtain ⟨v, hv, rfl⟩ := isFinite_iff.1 hf
    exact ⟨v, hv, rfl, by rw [abs_fin, one_def, fin_le_fin] at hx; exact hx⟩
  obtain ⟨c, gc, rfl, c1⟩ := cases1 hc
  obtain ⟨s, gs, rfl, s1⟩ := cases1 hs
  have near : ∀ (q B : ℚ), (OnGrid B ∧ |B| < pow2 128) → |q| ≤ B → ∃ v hv, rnd q = fin v hv ∧ |v| ≤ B := by
    intro q B hB hq
    obtain ⟨h, e, h2⟩ := rnd_finite_of_abs_le hB hq
    exact ⟨_, h, e, h2⟩
  obtain ⟨g2, e2⟩ : ∃ g, (2 : F32) = fin 2 g := ⟨by decide +kernel, by decide +kernel⟩
  obtain ⟨gm2, em2⟩ : ∃ g, -(fin 2 g2) = fin (-2) g := ⟨by decide +kernel, rfl⟩
  obtain ⟨gq, eq⟩ : ∃ g, F32.sqrt (1 / 0.707) = fin (F32.sqrt (1 / 0.707)).val g := ⟨by decide +kernel, by decide +kernel⟩
  have hqv : |(F32.sqrt (1 / 0.707)).val| ≤ 5 / 4 := by decide +kernel
  rw [eq]
  generalize (F32.sqrt (1 / 0.707)).val = q at *
  have hG2 : OnGrid (2 : ℚ) ∧ |(2 : ℚ)| < pow2 128 := by decide +kernel
  have hG1 : OnGrid (1 : ℚ) ∧ |(1 : ℚ)| < pow2 128 := grid_one
  have hGh : OnGrid (1 / 2 : ℚ) ∧ |(1 / 2 : ℚ)| < pow2 128 := by decide +kernel
  have hGa : OnGrid (5 / 8 : ℚ) ∧ |(5 / 8 : ℚ)| < pow2 128 := by decide +kernel
  have hGt : OnGrid (1 / 4 : ℚ) ∧ |(1 / 4 : ℚ)| < pow2 128 := by decide +kernel
  -- 1 + cos
  have hc' := abs_le.1 c1
  have hs' := abs_le.1 s1
  obtain ⟨u, gu, eu, u1⟩ := near (1 + c) 2 hG2 (by rw [abs_le]; constructor <;> linarith)
  rw [one_def, add_fin, eu, e2, div_fin (by norm_num)]
  have hu' := abs_le.1 u1
  obtain ⟨u', gu', eu', u1'⟩ := near (u / 2) 2 hG2 (by rw [abs_le]; constructor <;> linarith)
  rw [eu']
  -- alpha
  rw [div_fin (by norm_num)]
  obtain ⟨t, gt, et, t1⟩ := near (s / 2) (1 / 2) hGh (by rw [abs_le]; constructor <;> linarith)
  rw [et, mul_fin]
  obtain ⟨al, gal, eal, al1⟩ := near (t * q) (5 / 8) hGa (by
    rw [_root_.abs_mul]
    calc |t| * |q| ≤ 1 / 2 * (5 / 4) := mul_le_mul t1 hqv (_root_.abs_nonneg _) (by norm_num)
      _ = 5 / 8 := by norm_num)
  rw [eal, add_fin, sub_fin]
  have hal := abs_le.1 al1
  obtain ⟨a0, ga0, ea0, -⟩ := near (1 + al) 2 hG2 (by rw [abs_le]; constructor <;> linarith)
  obtain ⟨a2, ga2, ea2, ha2⟩ := near (1 - al) 2 hG2 (by rw [abs_le]; constructor <;> linarith)
  have ha0 : 1 / 4 ≤ a0 := by
    have : fin (1 / 4) hGt ≤ rnd (1 + al) := fin_le_rnd (by linarith)
    rw [ea0, fin_le_fin] at this; exact this
  rw [ea0, ea2, em2, mul_fin]
  obtain ⟨a1, ga1, ea1, ha1⟩ := near (-2 * c) 2 hG2 (by rw [_root_.abs_mul]; norm_num; linarith)
  rw [ea1]
  have hneg : ∃ g, -(fin u gu) = fin (-u) g := ⟨by rw [_root_.abs_neg]; exact ⟨onGrid_neg gu.1, gu.2⟩, rfl⟩
  obtain ⟨gn, en⟩ := hneg
  rw [en]
  exact ⟨coeff_finite (by linarith) ha0, coeff_finite (by rw [_root_.abs_neg]; linarith) ha0, coeff_finite (by linarith) ha0,
    coeff_finite (by linarith) ha0, coeff_finite (by linarith) ha0⟩

theorem run_zero {f : KFilter} (h1 : f.x1 = 0) (h2 : f.x2 = 0) (hb0 : f.b0.isFinite = true) (hb1 : f.b1.isFinite = true)
    (hb2 : f.b2.isFinite = true) (ha1 : f.a1.isFinite = true) (ha2 : f.a2.isFinite = true) (n : ℕ) :
    f.run (List.replicate n 0) = List.replicate n 0 := by
  have z : ∀ {x : F32}, x.isFinite = true → x * 0 = 0 := by
    intro x hx
    obtain ⟨v, hv, rfl⟩ := isFinite_iff.1 hx
    rw [zero_def, mul_fin, MulZeroClass.mul_zero, rnd_zero, zero_def]
  have e : f.process 0 = (0, f) := by
    unfold KFilter.process
    dsimp only
    rw [z hb0, z hb1, z hb2, h1, h2, show (0 : F32) + 0 = 0 by decide +kernel, z ha1, z ha2,
      show (0 : F32) - 0 = 0 by decide +kernel]
    obtain ⟨x1, x2, b0, b1, b2, a1, a2⟩ := f
    simp only at h1 h2
    rw [h1, h2]
  induction n with
  | zero => rfl
  | succ n ih =>
    rw [List.replicate_succ]
    show (f.process 0).1 :: (f.process 0).2.run _ = _
    rw [e, ih]

/-- **C94, silence.** Digital silence measures minus infinity, at every rate from 1 kHz on. -/
theorem C94_silence (M : Libm) (hM : LufsLib M) (hU : UnitCircle M) (n : ℕ) (hn : 0 < n) (hl : n ≤ 2 ^ 30) (sr : ℕ)
    (hsr : 1000 ≤ sr) (hsr' : sr ≤ 2 ^ 32) : calculateLufs M (List.replicate n 0) (F32.ofNat sr) = .ok (inf true) := by
  obtain ⟨b, y, v, -, -, ey, -, ev, -, h, -⟩ := C94_measurement M hM (List.replicate n 0) (by simp; omega)
    (by rw [List.length_replicate]; exact hl) sr hsr
  obtain ⟨f0, f1, f2, f3, f4⟩ := filter_finite hU hsr hsr'
  rw [run_zero rfl rfl f0 f1 f2 f3 f4] at ey
  rw [ev, h ?_]
  subst ey
  unfold loudPowers
  rw [List.filter_eq_nil_iff]
  intro e he
  obtain ⟨k, -, rfl⟩ := List.mem_map.1 he
  rw [decide_eq_true_eq]
  have hz : ¬ rnd (pow2 (-24)) < powerOf (blockAt b (List.replicate n 0) k) := by
    unfold powerOf blockAt
    rw [List.drop_replicate, List.take_replicate, List.map_replicate, show (0 : F32) * 0 = 0 by decide +kernel]
    generalize min b (n - k * b) = m
    have hs : ∀ m : ℕ, F32.sum (List.replicate m (0 : F32)) = 0 := by
      intro m
      unfold F32.sum
      induction m with
      | zero => rfl
      | succ m ih =>
        rw [List.replicate_succ, List.foldl_cons, show (0 : F32) + 0 = 0 by decide +kernel, ih]
    rw [hs, List.length_replicate]
    rcases Nat.eq_zero_or_pos m with rfl | hm
    · decide +kernel
    · have hd : (0 : F32) / F32.ofNat m = 0 := by
        have hp := ofNat_pos hm
        rcases hN : F32.ofNat m with _ | s | ⟨w, hw⟩
        · exact absurd hN (ofNat_ne_nan _)
        · rw [zero_def]; exact fin_div_inf.trans zero_def
        · rw [hN, zero_def] at hp
          rw [zero_def, div_fin (fin_lt_fin.1 hp).ne', zero_div, rnd_zero_eq]
      rw [hd]; decide +kernel
  exact fun hlt => hz (lt_of_le_of_lt hM.gate hlt)

/-! ### The hypotheses can be met, and where the measurement fails -/

/-- cosine and sine of the filter angle at 2 kHz, correctly rounded; -70 LUFS is `1.17e-7` -/
def lowRateLibm : Libm := { Libm.demo with
  powf := fun _ _ => 1.1725e-7
  log10 := fun _ => 0
  cos := fun _ => 0.54105377
  sin := fun _ => -0.840988 }

theorem lowRate_lufs : LufsLib lowRateLibm where
  pow := fun y _ => (by decide +kernel : (1.1725e-7 : F32) ≠ nan)
  gate := (by decide +kernel : rnd (pow2 (-24)) ≤ (1.1725e-7 : F32))
  log := fun x _ => (by decide +kernel : (0 : F32) ≠ nan)

theorem lowRate_circle : UnitCircle lowRateLibm := fun _ _ =>
  (by decide +kernel : (0.54105377 : F32).abs ≤ 1 ∧ (-0.840988 : F32).abs ≤ 1)

/-- a signal with a loud block (ten samples of the impulse response), and 44.1 kHz -/
example : LufsLib lowRateLibm ∧ UnitCircle lowRateLibm ∧
    loudPowers 1.1725e-7 400 ((KFilter.new lowRateLibm (F32.ofNat 44100)).run [1, 0, 0, 0]) ≠ [] :=
  ⟨lowRate_lufs, lowRate_circle, by decide +kernel⟩

/-- **C94, violated: below 3364 Hz the filter is unstable.** Its corner frequency is then above half the sample rate.  At 2 kHz
the output for a single full-scale sample grows until it overflows and becomes NaN, the block is dropped, and the measured
loudness is minus infinity: the signal counts as silent. -/
theorem C94_violated : calculateLufs lowRateLibm (1 :: List.replicate 399 0) (F32.ofNat 2000) = .ok (inf true) := by
  decide +kernel

end Verif.Props
