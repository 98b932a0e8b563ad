/-
Pitch-class folding, soft weights and the bin loop: ranges.
-/
import Verif.Lemmas.Norm

namespace Verif.Chroma
open Verif F32

/-- What is asked of the mathematical library: facts that hold of every faithful implementation on the
arguments that occur. -/
structure Sane (M : Libm) : Prop where
  /-- `x^0.6` of a finite non-negative number; the largest one, `(2^128)^0.6`, is below `2^77` -/
  powf_range : ∀ x : F32, 0 ≤ x → x.isFinite = true → 0 ≤ M.powf x 0.6 ∧ M.powf x 0.6 ≤ rnd (pow2 77)
  powf_zero : M.powf 0 0.6 = 0
  exp_range : ∀ x : F32, x ≤ 0 → 0 ≤ M.exp x ∧ M.exp x ≤ 1
  log2_range : ∀ x : F32, 0 < x → x.isFinite = true → ∃ v hv, M.log2 x = fin v hv ∧ |v| ≤ 200

theorem truncQ_near (x : ℚ) : |x - (truncQ x : ℚ)| < 1 := by
  unfold truncQ
  split_ifs with h
  · rw [abs_lt]; constructor <;> linarith [Int.floor_le x, Int.lt_floor_add_one x]
  · rw [abs_lt]; constructor <;> linarith [Int.le_ceil x, Int.ceil_lt_add_one x]

theorem twelve : ∃ h, (12 : F32) = fin 12 h := ⟨by decide +kernel, by decide +kernel⟩

/-- the remainder modulo twelve -/
theorem remEuclid_range {a : F32} (h : a.isFinite = true) :
    ∃ v hv, remEuclid a 12 = fin v hv ∧ 0 ≤ v ∧ v ≤ 12 := by
  obtain ⟨x, hx, rfl⟩ := isFinite_iff.1 h
  obtain ⟨h12, e12⟩ := twelve
  have hr : |x - 12 * ((truncQ (x / 12) : ℤ) : ℚ)| ≤ 12 := by
    have := truncQ_near (x / 12)
    have e : x - 12 * ((truncQ (x / 12) : ℤ) : ℚ) = 12 * (x / 12 - (truncQ (x / 12) : ℤ)) := by ring
    rw [e, _root_.abs_mul, abs_of_pos (by norm_num : (0 : ℚ) < 12)]
    linarith
  obtain ⟨hq, e1, hb⟩ := rnd_finite_of_abs_le h12 hr
  have e2 : fmod (fin x hx) 12 = fin (rndQ (x - 12 * ((truncQ (x / 12) : ℤ) : ℚ))) hq := by
    rw [e12]
    show (if (12 : ℚ) = 0 then nan else _) = _
    rw [e1]
    exact if_neg (by norm_num)
  unfold remEuclid
  rw [e2]
  generalize rndQ (x - 12 * ((truncQ (x / 12) : ℤ) : ℚ)) = r at *
  have hb := abs_le.1 hb
  show ∃ v hv, (if fin r hq < 0 then fin r hq + (12 : F32).abs else fin r hq) = fin v hv ∧ 0 ≤ v ∧ v ≤ 12
  rw [zero_def]
  by_cases hc : r < 0
  · rw [if_pos (fin_lt_fin.2 hc)]
    have e3 : (12 : F32).abs = fin 12 h12 := by rw [e12, abs_fin]; congr 1
    rw [e3, add_fin]
    obtain ⟨hq', e4, l, u⟩ := rnd_between (x := r + 12) grid_zero h12 (by linarith) (by linarith)
    exact ⟨_, hq', e4, l, u⟩
  · rw [if_neg (fun h => hc (fin_lt_fin.1 h))]
    exact ⟨r, hq, rfl, not_lt.1 hc, hb.2⟩

theorem sigma_floor (sigma : F32) : (1e-6 : F32) ≤ F32.max sigma 1e-6 := le_max_right (by decide +kernel)

/-- the squared width is positive (possibly infinite) -/
theorem width_pos (sigma : F32) : (0 : F32) < 2 * F32.max sigma 1e-6 * F32.max sigma 1e-6 := by
  have h := sigma_floor sigma
  generalize F32.max sigma 1e-6 = s at *
  have h0 : (0 : F32) ≤ s := F32.le_trans (by decide +kernel) h
  rcases nonneg_cases h0 with rfl | ⟨v, hv, rfl, hv0⟩
  · decide +kernel
  · obtain ⟨q, hq, eq, hq1⟩ : ∃ q hq, (1e-6 : F32) = fin q hq ∧ 1 / 2 ^ 20 ≤ q :=
      ⟨(1e-6 : F32).val, by decide +kernel, by decide +kernel, by decide +kernel⟩
    rw [eq, fin_le_fin] at h
    have hv1 : 1 / 2 ^ 20 ≤ v := hq1.trans h
    obtain ⟨h2, e2⟩ : ∃ h, (2 : F32) = fin 2 h := ⟨by decide +kernel, by decide +kernel⟩
    obtain ⟨g1, e1⟩ : ∃ h, rnd (1 / 2 ^ 19) = fin (1 / 2 ^ 19) h := ⟨by decide +kernel, by decide +kernel⟩
    have ha : fin (1 / 2 ^ 19) g1 ≤ 2 * fin v hv := by
      rw [e2, mul_fin]; exact fin_le_rnd (by linarith)
    obtain ⟨g3, e3⟩ : ∃ h, rnd (1 / 2 ^ 39) = fin (1 / 2 ^ 39) h := ⟨by decide +kernel, by decide +kernel⟩
    have hb : fin (1 / 2 ^ 39) g3 ≤ 2 * fin v hv * fin v hv := by
      have h00 : (0 : F32) ≤ 2 * fin v hv := F32.le_trans (by rw [← e1]; decide +kernel) ha
      rcases nonneg_cases h00 with e | ⟨w, hw, e, hw0⟩
      · rw [e, inf_mul_fin, if_neg (by linarith [show (0 : ℚ) < 1 / 2 ^ 20 by norm_num])]
        have : decide (v < 0) = false := by simp; linarith
        simp [this, le_def, toW]
      · rw [e, fin_le_fin] at ha
        rw [e, mul_fin]
        refine fin_le_rnd ?_
        calc (1 / 2 ^ 39 : ℚ) = 1 / 2 ^ 19 * (1 / 2 ^ 20) := by norm_num
          _ ≤ w * v := _root_.mul_le_mul ha hv1 (by norm_num) hw0
    exact F32.lt_of_lt_of_le (by rw [zero_def, fin_lt_fin]; norm_num) hb

theorem neg_quot {d : ℚ} {hd} (h0 : 0 ≤ d) (h1 : d ≤ 12) {W : F32} (hW : 0 < W) :
    -(fin d hd) * fin d hd / W ≤ 0 := by
  rw [neg_fin, mul_fin]
  have g : OnGrid (-144 : ℚ) ∧ |(-144 : ℚ)| < pow2 128 := by decide +kernel
  obtain ⟨hq, e, l, u⟩ := rnd_between (x := -d * d) g grid_zero (by nlinarith) (by nlinarith)
  rw [e]
  generalize rndQ (-d * d) = q at *
  rcases nonneg_cases (F32.le_of_lt hW) with rfl | ⟨w, hw, rfl, hw0⟩
  · rw [fin_div_inf]; decide +kernel
  · rw [zero_def, fin_lt_fin] at hW
    rw [div_fin hW.ne', zero_def]
    exact rnd_le_fin (div_nonpos_of_nonpos_of_nonneg u hw0)

/-- **The soft weight is a weight.** -/
theorem softWeight_range {M : Libm} (hM : Sane M) {sigma : F32} {v : ℚ} {hv} {t : ℤ}
    (h0 : 0 ≤ v) (h1 : v ≤ 12) (ht0 : 0 ≤ t) (ht1 : t < 12) :
    0 ≤ softWeight M sigma (fin v hv) t ∧ softWeight M sigma (fin v hv) t ≤ 1 := by
  obtain ⟨h12, e12⟩ := twelve
  have ht : ∃ h, F32.ofInt t = fin t h := by
    obtain ⟨n, rfl⟩ := Int.eq_ofNat_of_zero_le ht0
    have : n ≤ 2 ^ 24 := by omega
    refine ⟨by simpa using grid_nat this, ?_⟩
    have := ofNat_exact this
    unfold ofNat at this
    unfold ofInt
    simpa using this
  obtain ⟨hti, eti⟩ := ht
  have htq0 : (0 : ℚ) ≤ t := by exact_mod_cast ht0
  have htq1 : (t : ℚ) ≤ 12 := by exact_mod_cast ht1.le
  obtain ⟨hq, e1, hb⟩ := rnd_finite_of_abs_le (q := v - t) h12 (by rw [abs_le]; constructor <;> linarith)
  have hd0 : ∃ d hd, (fin v hv - F32.ofInt t).abs = fin d hd ∧ 0 ≤ d ∧ d ≤ 12 :=
    ⟨_, _, by rw [eti, sub_fin, e1, abs_fin], _root_.abs_nonneg _, hb⟩
  obtain ⟨d, hd, ed, hd0, hd12⟩ := hd0
  obtain ⟨hq2, e2, l2, u2⟩ := rnd_between (x := 12 - d) grid_zero h12 (by linarith) (by linarith)
  have hm : ∃ m hm, F32.min (fin d hd) (12 - fin d hd) = fin m hm ∧ 0 ≤ m ∧ m ≤ 12 := by
    rw [e12, sub_fin, e2]
    rcases min_eq_left_or_right (fin d hd) (fin (rndQ (12 - d)) hq2) with e | e <;> rw [e]
    · exact ⟨d, hd, rfl, hd0, hd12⟩
    · exact ⟨_, hq2, rfl, l2, u2⟩
  obtain ⟨m, hm, em, hm0, hm12⟩ := hm
  unfold softWeight
  rw [ed]
  show 0 ≤ M.exp (-(F32.min (fin d hd) (12 - fin d hd)) * F32.min (fin d hd) (12 - fin d hd) /
    (2 * F32.max sigma 1e-6 * F32.max sigma 1e-6)) ∧ M.exp (-(F32.min (fin d hd) (12 - fin d hd)) *
    F32.min (fin d hd) (12 - fin d hd) / (2 * F32.max sigma 1e-6 * F32.max sigma 1e-6)) ≤ 1
  rw [em]
  exact hM.exp_range _ (neg_quot hm0 hm12 (width_pos sigma))

/-! ### The accumulator -/

/-- twelve non-negative numbers, below `2^101` -/
def Acc (c : List F32) : Prop := c.length = 12 ∧ ∀ x ∈ c, 0 ≤ x ∧ x ≤ rnd (pow2 101)

theorem acc_zero : Acc zero12 := by
  refine ⟨rfl, fun x hx => ?_⟩
  have := List.eq_of_mem_replicate hx
  subst this
  decide +kernel

theorem acc_mags {c : List F32} (h : Acc c) : Mags c := fun x hx =>
  ⟨(h.2 x hx).1, isFinite_of_between (lo := 0) (hi := rnd (pow2 101)) (by decide +kernel) (by decide +kernel)
    (h.2 x hx).1 (h.2 x hx).2⟩

theorem grid101 : ∃ h, rnd (pow2 101) = fin (pow2 101) h := ⟨by decide +kernel, by decide +kernel⟩
theorem grid77 : ∃ h, rnd (pow2 77) = fin (pow2 77) h := ⟨by decide +kernel, by decide +kernel⟩
theorem sat101 : rnd (pow2 101 + pow2 77) = rnd (pow2 101) := by decide +kernel

/-- adding a contribution below half a unit in the last place of the bound keeps the bound -/
theorem add_sat {x v : F32} (h0 : 0 ≤ x) (h1 : x ≤ rnd (pow2 101)) (h2 : 0 ≤ v) (h3 : v ≤ rnd (pow2 77)) :
    0 ≤ x + v ∧ x + v ≤ rnd (pow2 101) := by
  obtain ⟨g, eg⟩ := grid101
  obtain ⟨g', eg'⟩ := grid77
  rw [eg] at h1; rw [eg'] at h3
  rw [zero_def] at h0 h2
  obtain ⟨a, ha, rfl, ha0, ha1⟩ := between_cases h0 h1
  obtain ⟨b, hb, rfl, hb0, hb1⟩ := between_cases h2 h3
  rw [add_fin]
  refine ⟨rnd_nonneg (by linarith), ?_⟩
  rw [← sat101]
  exact rnd_mono (by linarith)

theorem mem_modify {α} {l : List α} {k : ℕ} {f : α → α} {y : α} (h : y ∈ l.modify k f) :
    y ∈ l ∨ ∃ x ∈ l, y = f x := by
  obtain ⟨i, hi, rfl⟩ := List.mem_iff_getElem.1 h
  rw [List.getElem_modify]
  have hi' : i < l.length := by simpa using hi
  split_ifs
  · exact Or.inr ⟨_, List.getElem_mem hi', rfl⟩
  · exact Or.inl (List.getElem_mem hi')

theorem addAt_acc {c : List F32} (h : Acc c) {k : ℕ} (hk : k < 12) {v : F32} (h2 : 0 ≤ v) (h3 : v ≤ rnd (pow2 77)) :
    ∃ c', addAt c k v = .ok c' ∧ Acc c' := by
  unfold addAt
  rw [if_pos (by rw [h.1]; exact hk)]
  refine ⟨_, rfl, by rw [List.length_modify]; exact h.1, fun y hy => ?_⟩
  rcases mem_modify hy with hy | ⟨x, hx, rfl⟩
  · exact h.2 y hy
  · exact add_sat (h.2 x hx).1 (h.2 x hx).2 h2 h3

theorem weighted {c w : F32} (h0 : 0 ≤ c) (h1 : c ≤ rnd (pow2 77)) (h2 : 0 ≤ w) (h3 : w ≤ 1) :
    0 ≤ c * w ∧ c * w ≤ rnd (pow2 77) := by
  obtain ⟨g', eg'⟩ := grid77
  rw [eg'] at h1 ⊢
  rw [zero_def] at h0 h2
  rw [one_def] at h3
  obtain ⟨a, ha, rfl, ha0, ha1⟩ := between_cases h0 h1
  obtain ⟨b, hb, rfl, hb0, hb1⟩ := between_cases h2 h3
  rw [mul_fin]
  exact ⟨rnd_nonneg (by positivity), rnd_le_fin (by nlinarith)⟩

theorem softStep_acc {M : Libm} (hM : Sane M) {sigma semi contrib : F32} (hs : semi.isFinite = true)
    (h0 : 0 ≤ contrib) (h1 : contrib ≤ rnd (pow2 77)) {c : List F32} (h : Acc c) :
    ∃ c', softStep M sigma semi contrib c = .ok c' ∧ Acc c' := by
  obtain ⟨v, hv, e, hv0, hv12⟩ := remEuclid_range hs
  unfold softStep
  simp only [e]
  have step : ∀ (off : ℤ) (c : List F32), Acc c → ∃ c', addAt c ((primaryClass (fin v hv) + off) % 12).toNat
      (contrib * softWeight M sigma (fin v hv) ((primaryClass (fin v hv) + off) % 12)) = .ok c' ∧ Acc c' := by
    intro off c hc
    have t0 := Int.emod_nonneg (primaryClass (fin v hv) + off) (by norm_num : (12 : ℤ) ≠ 0)
    have t1 := Int.emod_lt_of_pos (primaryClass (fin v hv) + off) (by norm_num : (0 : ℤ) < 12)
    obtain ⟨w0, w1⟩ := softWeight_range hM (sigma := sigma) (hv := hv) hv0 hv12 t0 t1
    obtain ⟨a0, a1⟩ := weighted h0 h1 w0 w1
    exact addAt_acc hc (by omega) a0 a1
  simp only [List.foldlM_cons, List.foldlM_nil]
  obtain ⟨c1, e1, k1⟩ := step (-1) c h
  obtain ⟨c2, e2, k2⟩ := step 0 c1 k1
  obtain ⟨c3, e3, k3⟩ := step 1 c2 k2
  refine ⟨c3, ?_, k3⟩
  rw [e1]; simp only [R.ok_bind]
  rw [e2]; simp only [R.ok_bind]
  rw [e3]; rfl

theorem hardClass_range (semi : F32) : 0 ≤ hardClass semi ∧ hardClass semi < 12 := by
  unfold hardClass
  have h1 := Int.tmod_lt_of_pos (semi.round.toI32) (by norm_num : (0 : ℤ) < 12)
  have h2 := Int.lt_tmod_of_pos (semi.round.toI32) (by norm_num : (0 : ℤ) < 12)
  simp only
  split_ifs <;> omega

theorem hardStep_acc {semi contrib : F32} (h0 : 0 ≤ contrib) (h1 : contrib ≤ rnd (pow2 77)) {c : List F32}
    (h : Acc c) : ∃ c', hardStep semi contrib c = .ok c' ∧ Acc c' :=
  addAt_acc h (by have := hardClass_range semi; omega) h0 h1

/-- the largest finite number -/
theorem max_finite {t : ℚ} (h : OnGrid t ∧ |t| < pow2 128) : |t| ≤ pow2 128 - pow2 104 := by
  by_contra hc
  have hc := not_le.1 hc
  have h127 : pow2 127 ≤ |t| := by
    have : pow2 127 ≤ pow2 128 - pow2 104 := by decide +kernel
    linarith
  have h0 : t ≠ 0 := by
    rintro rfl
    have := pow2_pos 127
    rw [abs_zero] at h127
    linarith
  have l1 := log_le_of_lt (L := 127) h0 h.2
  have l2 := le_log_of_le h127
  have hu : ulpExp |t| = 104 := by
    unfold ulpExp
    rw [abs_abs, show Int.log 2 |t| = 127 by omega]; rfl
  have hg : rndQ |t| = |t| := onGrid_abs h.1
  unfold rndQ at hg
  rw [hu] at hg
  generalize roundEven (|t| / pow2 104) = k at hg
  have e128 : pow2 128 = (2 ^ 24 : ℤ) * pow2 104 := by decide +kernel
  have hp := pow2_pos 104
  have k1 : k < 2 ^ 24 := by
    have : (k : ℚ) * pow2 104 < (2 ^ 24 : ℤ) * pow2 104 := by rw [hg, ← e128]; exact h.2
    exact_mod_cast lt_of_mul_lt_mul_right this hp.le
  have k2 : ((2 ^ 24 - 1 : ℤ) : ℚ) * pow2 104 < k * pow2 104 := by
    rw [hg]; push_cast at e128 ⊢; linarith
  have k3 : (2 ^ 24 - 1 : ℤ) < k := by exact_mod_cast lt_of_mul_lt_mul_right k2 hp.le
  omega

/-- the semitone of an audible frequency is a finite number whatever the (finite) tuning -/
theorem semitone_finite {M : Libm} (hM : Sane M) {f tuning : F32} (hf : FMIN ≤ f) (hf' : f ≤ FMAX)
    (ht : tuning.isFinite = true) : (semitone M f tuning).isFinite = true := by
  obtain ⟨h1, e1⟩ : ∃ h, FMIN = fin 100 h := ⟨by decide +kernel, by decide +kernel⟩
  obtain ⟨h2, e2⟩ : ∃ h, FMAX = fin 5000 h := ⟨by decide +kernel, by decide +kernel⟩
  obtain ⟨h3, e3⟩ : ∃ h, A4 = fin 440 h := ⟨by decide +kernel, by decide +kernel⟩
  obtain ⟨h5, e5⟩ : ∃ h, SEMI = fin 57 h := ⟨by decide +kernel, by decide +kernel⟩
  obtain ⟨h12, e12⟩ := twelve
  rw [e1] at hf; rw [e2] at hf'
  obtain ⟨v, hv, rfl, hv0, hv1⟩ := between_cases hf hf'
  have g8 : OnGrid (1 / 8 : ℚ) ∧ |(1 / 8 : ℚ)| < pow2 128 := by decide +kernel
  have g16 : OnGrid (16 : ℚ) ∧ |(16 : ℚ)| < pow2 128 := by decide +kernel
  obtain ⟨hq, e4, l, u⟩ := rnd_between (x := v / 440) g8 g16 (by rw [le_div_iff₀ (by norm_num)]; linarith)
    (by rw [div_le_iff₀ (by norm_num)]; linarith)
  unfold semitone
  rw [e3, div_fin (by norm_num), e4]
  obtain ⟨y, hy, ey, hyb⟩ := hM.log2_range (fin (rndQ (v / 440)) hq) (by rw [zero_def, fin_lt_fin]; linarith) rfl
  rw [ey, e12, mul_fin, e5]
  have g12 : OnGrid (2400 : ℚ) ∧ |(2400 : ℚ)| < pow2 128 := by decide +kernel
  have hyb' := abs_le.1 hyb
  obtain ⟨hz, ez, hzb⟩ := rnd_finite_of_abs_le (q := 12 * y) g12 (by rw [abs_le]; constructor <;> linarith)
  rw [ez, add_fin]
  generalize rndQ (12 * y) = z at *
  have g13 : OnGrid (4096 : ℚ) ∧ |(4096 : ℚ)| < pow2 128 := by decide +kernel
  have hzb' := abs_le.1 hzb
  obtain ⟨hw, ew, hwb⟩ := rnd_finite_of_abs_le (q := z + 57) g13 (by rw [abs_le]; constructor <;> linarith)
  rw [ew]
  generalize rndQ (z + 57) = w at *
  obtain ⟨t, htg, rfl⟩ := isFinite_iff.1 ht
  rw [sub_fin]
  -- the largest finite number absorbs 4096
  have hmax : rndQ (pow2 128 - pow2 104 + 4096) = pow2 128 - pow2 104 := by decide +kernel
  have htb : |t| ≤ pow2 128 - pow2 104 := max_finite htg
  have hd : |w - t| ≤ pow2 128 - pow2 104 + 4096 := by
    have := abs_sub w t
    linarith
  have : |rndQ (w - t)| < pow2 128 := by
    rw [abs_rndQ]
    have := rndQ_mono hd
    rw [hmax] at this
    have := pow2_pos 104
    linarith
  rw [rnd_of_lt this]; rfl

/-- a bin frequency is a number when the transform size is positive -/
theorem freq_ne_nan {sr fft i : ℕ} (hs : sr ≤ 2 ^ 64) (hf : 0 < fft) (hf' : fft ≤ 2 ^ 64) (hi : i ≤ 2 ^ 64) :
    F32.ofNat i * (F32.ofNat sr / F32.ofNat fft) ≠ nan := by
  have b : (2 ^ 64 : ℕ) ≤ 2 ^ 127 := by norm_num
  have h1 := ofNat_finite (hs.trans b)
  have h2 := ofNat_finite (hi.trans b)
  have h3 := ofNat_finite (hf'.trans b)
  have h4 := one_le_ofNat hf
  have h5 := ofNat_nonneg sr
  obtain ⟨x, hx, ex⟩ := isFinite_iff.1 h1
  obtain ⟨y, hy, ey⟩ := isFinite_iff.1 h3
  rw [ey] at h4 ⊢
  rw [ex] at h5 ⊢
  rw [one_def, fin_le_fin] at h4
  rw [zero_def, fin_le_fin] at h5
  rw [div_fin (by linarith)]
  have hb : |x / y| ≤ x := by
    rw [abs_of_nonneg (by positivity), div_le_iff₀ (by linarith)]; nlinarith
  obtain ⟨hq, e, _⟩ := rnd_finite_of_abs_le hx hb
  rw [e]
  exact mul_fin_ne_nan h2 rfl

/-- what the loop knows about a frequency it uses -/
theorem freq_used {sr fft i : ℕ} (hs : sr ≤ 2 ^ 64) (hf : 0 < fft) (hf' : fft ≤ 2 ^ 64) (hi : i ≤ 2 ^ 64)
    (h1 : ¬ F32.ofNat i * (F32.ofNat sr / F32.ofNat fft) < FMIN)
    (h2 : ¬ F32.min FMAX (nyquist sr) < F32.ofNat i * (F32.ofNat sr / F32.ofNat fft)) :
    FMIN ≤ F32.ofNat i * (F32.ofNat sr / F32.ofNat fft) ∧ F32.ofNat i * (F32.ofNat sr / F32.ofNat fft) ≤ FMAX := by
  have hn := freq_ne_nan hs hf hf' hi
  have hm : FMAX ≠ nan := by decide +kernel
  exact ⟨F32.le_of_not_lt (by decide +kernel) hn h1,
    F32.le_trans (F32.le_of_not_lt hn (min_ne_nan_left hm) h2) (F32.min_le_left hm)⟩

/-- a magnitude the extractor can deal with: anything but `+∞` (NaN and negative values count as zero) -/
def Tame (m : F32) : Prop := m ≠ inf false

theorem max_zero_tame {m : F32} (h : Tame m) : 0 ≤ F32.max m 0 ∧ (F32.max m 0).isFinite = true := by
  refine ⟨le_max_right (by decide +kernel), ?_⟩
  rcases m with _ | (_ | _) | ⟨v, hv⟩
  · decide +kernel
  · exact absurd rfl h
  · decide +kernel
  · rcases max_eq_left_or_right (fin v hv) 0 with e | e <;> rw [e]
    · rfl
    · decide +kernel

theorem mapStep_acc {M : Libm} (hM : Sane M) (soft : Bool) (sigma : F32) {semi contrib : F32}
    (hs : semi.isFinite = true) (h0 : 0 ≤ contrib) (h1 : contrib ≤ rnd (pow2 77)) {c : List F32} (h : Acc c) :
    ∃ c', mapStep M soft sigma semi contrib c = .ok c' ∧ Acc c' := by
  unfold mapStep
  cases soft
  · exact hardStep_acc h0 h1 h
  · exact softStep_acc hM hs h0 h1 h

theorem binLoop_acc {M : Libm} (hM : Sane M) {sr fft : ℕ} (hs : sr ≤ 2 ^ 64) (hf : 0 < fft) (hf' : fft ≤ 2 ^ 64)
    (soft : Bool) (sigma : F32) {tuning : F32} (ht : tuning.isFinite = true) :
    ∀ (frame : List F32) (i : ℕ) (c : List F32), (∀ m ∈ frame, Tame m) → i + frame.length ≤ 2 ^ 64 → Acc c →
      ∃ c', binLoop M sr fft soft sigma tuning i frame c = .ok c' ∧ Acc c' := by
  intro frame
  induction frame with
  | nil => intro i c _ _ h; exact ⟨c, rfl, h⟩
  | cons m ms ih =>
    intro i c hm hi hc
    rw [List.length_cons] at hi
    have hms : ∀ m ∈ ms, Tame m := fun x hx => hm x (by simp [hx])
    unfold binLoop
    simp only
    by_cases h1 : F32.ofNat i * (F32.ofNat sr / F32.ofNat fft) < FMIN
    · rw [if_pos h1]; exact ih _ _ hms (by omega) hc
    rw [if_neg h1]
    by_cases h2 : F32.min FMAX (nyquist sr) < F32.ofNat i * (F32.ofNat sr / F32.ofNat fft)
    · rw [if_pos h2]; exact ⟨c, rfl, hc⟩
    rw [if_neg h2]
    by_cases h3 : nyquist sr ≤ F32.ofNat i * (F32.ofNat sr / F32.ofNat fft)
    · rw [if_pos h3]; exact ⟨c, rfl, hc⟩
    rw [if_neg h3]
    obtain ⟨f1, f2⟩ := freq_used hs hf hf' (by omega) h1 h2
    obtain ⟨m0, mf⟩ := max_zero_tame (hm m (by simp))
    obtain ⟨p0, p1⟩ := hM.powf_range _ m0 mf
    have hsf := semitone_finite hM f1 f2 ht
    obtain ⟨c1, e1, k1⟩ := mapStep_acc hM soft sigma hsf p0 p1 hc
    rw [e1]
    exact ih _ _ hms (by omega) k1

end Verif.Chroma
