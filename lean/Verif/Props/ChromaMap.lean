/-
A single tone lands on the nearest pitch class (C67).
-/
import Verif.Props.Chroma
import Verif.Props.Stability

namespace Verif.Props
open Verif F32 Chroma

/-! ### A single tone -/

theorem add_zero_right (x : F32) : x + 0 = x := by
  rcases x with _ | s | ⟨v, hv⟩
  · rfl
  · rw [zero_def]; rfl
  · rw [zero_def, add_fin, add_zero, rnd_val hv]

theorem addAt_zero' {c : List F32} {k : ℕ} (hk : k < c.length) : addAt c k 0 = .ok c := by
  unfold addAt
  rw [if_pos hk]
  congr 1
  apply List.ext_getElem
  · simp
  · intro i h1 h2
    rw [List.getElem_modify]
    split_ifs
    · exact add_zero_right _
    · rfl

theorem mapStep_zero' {M : Libm} (hM : Sane M) (soft : Bool) (sigma : F32) {semi : F32} (hs : semi.isFinite = true)
    {c : List F32} (hc : c.length = 12) : mapStep M soft sigma semi 0 c = .ok c := by
  unfold mapStep
  cases soft
  · exact addAt_zero' (by have := hardClass_range semi; omega)
  · simp only [if_true]
    obtain ⟨v, hv, e, hv0, hv12⟩ := remEuclid_range hs
    unfold softStep
    simp only [e, List.foldlM_cons, List.foldlM_nil]
    have step : ∀ off : ℤ, addAt c ((primaryClass (fin v hv) + off) % 12).toNat
        (0 * softWeight M sigma (fin v hv) ((primaryClass (fin v hv) + off) % 12)) = .ok c := by
      intro off
      have t0 := Int.emod_nonneg (primaryClass (fin v hv) + off) (by norm_num : (12 : ℤ) ≠ 0)
      have t1 := Int.emod_lt_of_pos (primaryClass (fin v hv) + off) (by norm_num : (0 : ℤ) < 12)
      obtain ⟨w0, w1⟩ := softWeight_range hM (sigma := sigma) (hv := hv) hv0 hv12 t0 t1
      rw [zero_mul_unit w0 w1]
      exact addAt_zero' (by omega)
    rw [step]; simp only [R.ok_bind]
    rw [step]; simp only [R.ok_bind]
    rw [step]; rfl

theorem binLoop_silent' {M : Libm} (hM : Sane M) {sr fft : ℕ} (hs : sr ≤ 2 ^ 64) (hf : 0 < fft) (hf' : fft ≤ 2 ^ 64)
    (soft : Bool) (sigma : F32) {tuning : F32} (ht : tuning.isFinite = true) {c : List F32} (hc : c.length = 12) :
    ∀ (frame : List F32) (i : ℕ), (∀ m ∈ frame, F32.max m 0 = 0) → i + frame.length ≤ 2 ^ 64 →
      binLoop M sr fft soft sigma tuning i frame c = .ok c := by
  intro frame
  induction frame with
  | nil => intro i _ _; rfl
  | cons m ms ih =>
    intro i hm hi
    rw [List.length_cons] at hi
    have ih' := ih (i + 1) (fun x hx => hm x (by simp [hx])) (by omega)
    unfold binLoop
    simp only
    split_ifs with h1 h2 h3
    · exact ih'
    · rfl
    · rfl
    · obtain ⟨f1, f2⟩ := freq_used hs hf hf' (by omega) h1 h2
      rw [hm m (by simp), hM.powf_zero, mapStep_zero' hM soft sigma (semitone_finite hM f1 f2 ht) hc]
      exact ih'

theorem max_silent {m : F32} (h : ¬ 0 < m) : F32.max m 0 = 0 := by
  rcases m with _ | (_ | _) | ⟨v, hv⟩
  · decide +kernel
  · exact absurd (by decide +kernel) h
  · decide +kernel
  · rw [zero_def, fin_lt_fin] at h
    unfold F32.max
    rw [if_neg (by simp [isNaN]), if_neg (by rw [zero_def]; simp [isNaN]), zero_def]
    by_cases hv0 : v < 0
    · rw [if_pos (fin_lt_fin.2 hv0)]
    · rw [if_neg (fun h => hv0 (fin_lt_fin.1 h))]
      have : v = 0 := by linarith
      subst this; rfl

/-- bin frequencies grow with the bin -/
theorem freq_mono {sr fft i j : ℕ} (hs : sr ≤ 2 ^ 64) (hf : 0 < fft) (hf' : fft ≤ 2 ^ 64) (hj : j ≤ 2 ^ 64) (h : i ≤ j) :
    F32.ofNat i * (F32.ofNat sr / F32.ofNat fft) ≤ F32.ofNat j * (F32.ofNat sr / F32.ofNat fft) := by
  refine F32.mul_le_mul_of_nonneg_right (ofNat_mono h) ?_ (freq_ne_nan hs hf hf' (h.trans hj)) (freq_ne_nan hs hf hf' hj)
  exact F32.div_nonneg (ofNat_nonneg _) (ofNat_nonneg _)
    (div_fin_ne_nan (ofNat_finite (hs.trans (by norm_num))) (ofNat_pos hf))

/-- the loop over a frame with one sounding bin does one step -/
theorem binLoop_tone {M : Libm} (hM : Sane M) {sr fft : ℕ} (hs : sr ≤ 2 ^ 64) (hf : 0 < fft) (hf' : fft ≤ 2 ^ 64)
    (soft : Bool) (sigma : F32) {tuning : F32} (ht : tuning.isFinite = true) {i₀ : ℕ} {m : F32}
    (h1 : FMIN ≤ F32.ofNat i₀ * (F32.ofNat sr / F32.ofNat fft))
    (h2 : F32.ofNat i₀ * (F32.ofNat sr / F32.ofNat fft) ≤ FMAX)
    (h3 : F32.ofNat i₀ * (F32.ofNat sr / F32.ofNat fft) < nyquist sr) :
    ∀ (frame : List F32) (i : ℕ), i ≤ i₀ → frame[i₀ - i]? = some m →
      (∀ (j : ℕ) (x : F32), frame[j]? = some x → i + j ≠ i₀ → ¬ 0 < x) → i + frame.length ≤ 2 ^ 64 →
      binLoop M sr fft soft sigma tuning i frame zero12 =
        mapStep M soft sigma (semitone M (F32.ofNat i₀ * (F32.ofNat sr / F32.ofNat fft)) tuning)
          (M.powf (F32.max m 0) 0.6) zero12 := by
  intro frame
  induction frame with
  | nil => intro i _ h; simp at h
  | cons x xs ih =>
    intro i hi hm hsil hl
    rw [List.length_cons] at hl
    have hi0 : i₀ - i < xs.length + 1 := by
      have := (List.getElem?_eq_some_iff.1 hm).1
      simpa using this
    have hmono := freq_mono (i := i) (j := i₀) hs hf hf' (by omega) hi
    by_cases he : i = i₀
    · subst he
      have hx : x = m := by simpa using hm
      subst hx
      unfold binLoop
      simp only
      rw [if_neg (F32.not_lt_of_le h1), if_neg, if_neg]
      · obtain ⟨c1, e1, k1⟩ := mapStep_len M soft sigma (semitone M (F32.ofNat i * (F32.ofNat sr / F32.ofNat fft)) tuning)
          (M.powf (F32.max x 0) 0.6) (c := zero12) rfl
        rw [e1]
        refine binLoop_silent' hM hs hf hf' soft sigma ht k1 xs (i + 1) ?_ (by omega)
        intro y hy
        obtain ⟨j, hj⟩ := List.mem_iff_getElem?.1 hy
        exact max_silent (hsil (j + 1) y (by simpa using hj) (by omega))
      · exact fun h => absurd h3 (F32.not_lt_of_le h)
      · intro h
        rcases min_eq_left_or_right FMAX (nyquist sr) with e | e <;> rw [e] at h
        · exact absurd h (F32.not_lt_of_le h2)
        · exact F32.lt_irrefl _ (F32.lt_trans h h3)
    · have hx : ¬ 0 < x := hsil 0 x (by simp) (by omega)
      have hm' : xs[i₀ - (i + 1)]? = some m := by
        have : i₀ - i = (i₀ - (i + 1)) + 1 := by omega
        rw [this] at hm; simpa using hm
      have ih' := ih (i + 1) (by omega) hm' (fun j y hj hne => hsil (j + 1) y (by simpa using hj) (by omega)) (by omega)
      unfold binLoop
      simp only
      by_cases c1 : F32.ofNat i * (F32.ofNat sr / F32.ofNat fft) < FMIN
      · rw [if_pos c1]; exact ih'
      rw [if_neg c1]
      have c2 : ¬ F32.min FMAX (nyquist sr) < F32.ofNat i * (F32.ofNat sr / F32.ofNat fft) := by
        intro h
        rcases min_eq_left_or_right FMAX (nyquist sr) with e | e <;> rw [e] at h
        · exact absurd h (F32.not_lt_of_le (F32.le_trans hmono h2))
        · exact F32.lt_irrefl _ (F32.lt_trans h (F32.lt_of_le_of_lt hmono h3))
      have c3 : ¬ nyquist sr ≤ F32.ofNat i * (F32.ofNat sr / F32.ofNat fft) :=
        fun h => absurd (F32.lt_of_le_of_lt hmono h3) (F32.not_lt_of_le h)
      rw [if_neg c2, if_neg c3]
      obtain ⟨f1, f2⟩ := freq_used hs hf hf' (by omega) c1 c2
      rw [max_silent hx, hM.powf_zero, mapStep_zero' hM soft sigma (semitone_finite hM f1 f2 ht) rfl]
      exact ih'

/-! #### The nearest pitch class -/

theorem roundAway_near (v : ℚ) : |v - (roundAway v : ℚ)| ≤ 1 / 2 := by
  unfold roundAway
  split_ifs with h
  · have h1 := Int.floor_le (v + 1 / 2)
    have h2 := Int.lt_floor_add_one (v + 1 / 2)
    rw [abs_le]; constructor <;> linarith
  · have h1 := Int.floor_le (-v + 1 / 2)
    have h2 := Int.lt_floor_add_one (-v + 1 / 2)
    push_cast
    rw [abs_le]; constructor <;> linarith

theorem ofInt_exact {n : ℤ} (h : |n| ≤ 2 ^ 24) : ∃ hn, rnd (n : ℚ) = fin n hn := by
  have hg : OnGrid (n : ℚ) := by
    have := onGrid_of_scaled (m := n) (e := 0) h (by norm_num)
    have e0 : pow2 0 = 1 := by decide +kernel
    rw [e0, mul_one] at this
    exact this
  have hlt : |(n : ℚ)| < pow2 128 := by
    have h1 : |(n : ℚ)| ≤ 2 ^ 24 := by exact_mod_cast h
    have h2 : (2 ^ 24 : ℚ) < pow2 128 := by decide +kernel
    linarith
  exact ⟨⟨hg, hlt⟩, rnd_val _⟩

/-- `k` is the pitch class nearest to the semitone number `s`, with tolerance `d` -/
def NearestClass (s : ℚ) (k : ℕ) (d : ℚ) : Prop := k < 12 ∧ ∃ q : ℤ, |s - (12 * q + k)| ≤ 1 / 2 + d

theorem hardClass_nearest {v : ℚ} {hv} (h : |v| ≤ 2 ^ 23) :
    NearestClass v (hardClass (fin v hv)).toNat 0 := by
  have hr := roundAway_near v
  have hb : |roundAway v| ≤ 2 ^ 24 := by
    have h1 := abs_le.1 hr
    have h2 := abs_le.1 h
    have a1 : (roundAway v : ℚ) ≤ ((2 ^ 24 : ℤ) : ℚ) := by push_cast; linarith
    have a2 : ((-2 ^ 24 : ℤ) : ℚ) ≤ (roundAway v : ℚ) := by push_cast; linarith
    rw [abs_le]
    exact ⟨by exact_mod_cast a2, by exact_mod_cast a1⟩
  obtain ⟨hn, en⟩ := ofInt_exact hb
  have ht : (fin v hv).round.toI32 = roundAway v := by
    show (rnd ((roundAway v : ℤ) : ℚ)).toI32 = _
    rw [en]
    show Max.max (-2 ^ 31) (Min.min (truncQ (roundAway v : ℚ)) (2 ^ 31 - 1)) = _
    have : truncQ (roundAway v : ℚ) = roundAway v := by unfold truncQ; split_ifs <;> simp
    rw [this]
    have := abs_le.1 hb
    omega
  have hk := hardClass_range (fin v hv)
  have hmod : hardClass (fin v hv) = roundAway v % 12 := by
    unfold hardClass
    rw [ht]
    simp only
    have h1 := Int.tmod_lt_of_pos (roundAway v) (by norm_num : (0 : ℤ) < 12)
    have h2 := Int.lt_tmod_of_pos (roundAway v) (by norm_num : (0 : ℤ) < 12)
    have h3 := Int.tmod_add_mul_tdiv (roundAway v) 12
    split_ifs <;> omega
  refine ⟨by omega, roundAway v / 12, ?_⟩
  have e : (12 * ((roundAway v / 12 : ℤ) : ℚ) + ((hardClass (fin v hv)).toNat : ℚ)) = (roundAway v : ℚ) := by
    have h4 : ((hardClass (fin v hv)).toNat : ℤ) = roundAway v % 12 := by omega
    have h5 : 12 * (roundAway v / 12) + ((hardClass (fin v hv)).toNat : ℤ) = roundAway v := by rw [h4]; omega
    exact_mod_cast h5
  rw [e]; linarith

theorem remEuclid_near {x : ℚ} {hx} {v : ℚ} {hv} (e : remEuclid (fin x hx) 12 = fin v hv) :
    ∃ q : ℤ, |x - (12 * q + v)| ≤ 1 / 2 ^ 19 := by
  obtain ⟨h12, e12⟩ := twelve
  have hr : |x - 12 * ((truncQ (x / 12) : ℤ) : ℚ)| ≤ 12 := by
    have := truncQ_near (x / 12)
    have e : x - 12 * ((truncQ (x / 12) : ℤ) : ℚ) = 12 * (x / 12 - (truncQ (x / 12) : ℤ)) := by ring
    rw [e, _root_.abs_mul, abs_of_pos (by norm_num : (0 : ℚ) < 12)]
    linarith
  obtain ⟨hq, e1, hb⟩ := rnd_finite_of_abs_le h12 hr
  have err := rndQ_err (x - 12 * ((truncQ (x / 12) : ℤ) : ℚ))
  have e2 : fmod (fin x hx) 12 = fin (rndQ (x - 12 * ((truncQ (x / 12) : ℤ) : ℚ))) hq := by
    rw [e12]
    show (if (12 : ℚ) = 0 then nan else _) = _
    rw [e1]
    exact if_neg (by norm_num)
  unfold remEuclid at e
  rw [e2] at e
  generalize hT : truncQ (x / 12) = T at *
  have heps : eps = 1 / 2 ^ 24 := rfl
  have heta : eta ≤ 1 / 2 ^ 24 := by unfold eta; norm_num
  have err' : |rndQ (x - 12 * (T : ℚ)) - (x - 12 * (T : ℚ))| ≤ 13 / 2 ^ 24 := by
    rw [heps] at err
    have : |x - 12 * (T : ℚ)| * (1 / 2 ^ 24) ≤ 12 * (1 / 2 ^ 24) := _root_.mul_le_mul_of_nonneg_right hr (by norm_num)
    linarith
  generalize rndQ (x - 12 * (T : ℚ)) = r at *
  have err'' := abs_le.1 err'
  have hb' := abs_le.1 hb
  change (if fin r hq < 0 then fin r hq + (12 : F32).abs else fin r hq) = fin v hv at e
  rw [zero_def] at e
  by_cases hc : r < 0
  · rw [if_pos (fin_lt_fin.2 hc)] at e
    have e3 : (12 : F32).abs = fin 12 h12 := by rw [e12, abs_fin]; congr 1
    obtain ⟨hq', e4, l, u⟩ := rnd_between (x := r + 12) grid_zero h12 (by linarith) (by linarith)
    rw [e3, add_fin, e4] at e
    have ev : rndQ (r + 12) = v := by injection e
    have er := rndQ_err (r + 12)
    rw [ev, heps, abs_of_nonneg (by linarith : 0 ≤ r + 12)] at er
    have er' := abs_le.1 er
    refine ⟨T - 1, ?_⟩
    push_cast
    have b1 : (r + 12) * (1 / 2 ^ 24) ≤ 12 * (1 / 2 ^ 24) := by
      apply _root_.mul_le_mul_of_nonneg_right _ (by norm_num); linarith
    have b2 : (13 / 2 ^ 24 + (12 * (1 / 2 ^ 24) + 1 / 2 ^ 24) : ℚ) ≤ 1 / 2 ^ 19 := by norm_num
    rw [abs_le]; constructor <;> linarith
  · rw [if_neg (fun h => hc (fin_lt_fin.1 h))] at e
    have ev : r = v := by injection e
    refine ⟨T, ?_⟩
    have b2 : (13 / 2 ^ 24 : ℚ) ≤ 1 / 2 ^ 19 := by norm_num
    rw [abs_le]; constructor <;> linarith

theorem primary_eq {v : ℚ} {hv} (h0 : 0 ≤ v) (h1 : v ≤ 12) :
    primaryClass (fin v hv) = roundAway v % 12 ∧ 0 ≤ roundAway v ∧ roundAway v ≤ 12 := by
  have hr := abs_le.1 (roundAway_near v)
  have a0 : 0 ≤ roundAway v := by
    unfold roundAway; rw [if_pos h0]
    exact Int.floor_nonneg.2 (by linarith)
  have a1 : roundAway v ≤ 12 := by
    have : (roundAway v : ℚ) < 13 := by linarith
    have : roundAway v < 13 := by exact_mod_cast this
    omega
  refine ⟨?_, a0, a1⟩
  have key : ∀ n : ℕ, n < 13 → (remEuclid (rnd ((n : ℤ) : ℚ)) 12).toI32 = (n : ℤ) % 12 := by decide +kernel
  show (remEuclid (rnd ((roundAway v : ℤ) : ℚ)) 12).toI32 = _
  obtain ⟨n, hn⟩ := Int.eq_ofNat_of_zero_le a0
  rw [hn]
  exact key n (by omega)

/-- the circular distance the code computes, as a number -/
theorem circ_val {v : ℚ} {hv} {t : ℤ} (h0 : 0 ≤ v) (h1 : v ≤ 12) (ht0 : 0 ≤ t) (ht1 : t < 12) :
    ∃ m hm, F32.min ((fin v hv - F32.ofInt t).abs) (12 - (fin v hv - F32.ofInt t).abs) = fin m hm ∧ 0 ≤ m ∧ m ≤ 12 ∧
      ((|v - t| ≤ 1 / 2 ∨ 23 / 2 ≤ |v - t|) → m ≤ 1 / 2) ∧
      ((1 / 2 ≤ |v - t| ∧ |v - t| ≤ 23 / 2) → 1 / 2 ≤ m) := by
  obtain ⟨h12, e12⟩ := twelve
  obtain ⟨hti, eti⟩ := ofInt_exact (n := t) (by rw [abs_le]; omega)
  have htq0 : (0 : ℚ) ≤ t := by exact_mod_cast ht0
  have htq1 : (t : ℚ) ≤ 12 := by exact_mod_cast ht1.le
  have ghalf : OnGrid (1 / 2 : ℚ) := by decide +kernel
  have g23 : OnGrid (23 / 2 : ℚ) := by decide +kernel
  obtain ⟨hq, e1, hb⟩ := rnd_finite_of_abs_le (q := v - t) h12 (by rw [abs_le]; constructor <;> linarith)
  have ed : (fin v hv - F32.ofInt t).abs = fin |rndQ (v - t)| (abs_aux hq) := by
    unfold F32.ofInt; rw [eti, sub_fin, e1, abs_fin]
  rw [ed]
  have c1 : |v - t| ≤ 1 / 2 → |rndQ (v - t)| ≤ 1 / 2 := by
    intro h; rw [abs_rndQ]; exact rndQ_le_of_onGrid ghalf h
  have c2 : 23 / 2 ≤ |v - t| → 23 / 2 ≤ |rndQ (v - t)| := by
    intro h; rw [abs_rndQ]; exact le_rndQ_of_onGrid g23 h
  have c3 : 1 / 2 ≤ |v - t| → 1 / 2 ≤ |rndQ (v - t)| := by
    intro h; rw [abs_rndQ]; exact le_rndQ_of_onGrid ghalf h
  have c4 : |v - t| ≤ 23 / 2 → |rndQ (v - t)| ≤ 23 / 2 := by
    intro h; rw [abs_rndQ]; exact rndQ_le_of_onGrid g23 h
  have hd0 : 0 ≤ |rndQ (v - t)| := _root_.abs_nonneg _
  generalize hw : |v - (t : ℚ)| = w at *
  have hg := abs_aux hq
  change ∃ m hm, F32.min (fin |rndQ (v - t)| hg) (12 - fin |rndQ (v - t)| hg) = fin m hm ∧ _
  clear ed e1 hq
  generalize |rndQ (v - (t : ℚ))| = d at *
  obtain ⟨hq2, e2, l2, u2⟩ := rnd_between (x := 12 - d) grid_zero h12 (by linarith) (by linarith)
  rw [e12, sub_fin, e2]
  have d1 : 23 / 2 ≤ d → rndQ (12 - d) ≤ 1 / 2 := fun h => rndQ_le_of_onGrid ghalf (by linarith)
  have d2 : d ≤ 23 / 2 → 1 / 2 ≤ rndQ (12 - d) := fun h => le_rndQ_of_onGrid ghalf (by linarith)
  generalize rndQ (12 - d) = d' at *
  by_cases hlt : d' < d
  · refine ⟨d', hq2, ?_, l2, u2, ?_, ?_⟩
    · unfold F32.min
      rw [if_neg (by simp [isNaN]), if_neg (by simp [isNaN]), if_pos (fin_lt_fin.2 hlt)]
    · rintro (h | h)
      · have := c1 h; linarith
      · exact d1 (c2 h)
    · rintro ⟨_, h⟩; exact d2 (c4 h)
  · refine ⟨d, hg, ?_, hd0, hb, ?_, ?_⟩
    · unfold F32.min
      rw [if_neg (by simp [isNaN]), if_neg (by simp [isNaN]), if_neg (fun h => hlt (fin_lt_fin.1 h))]
    · rintro (h | h)
      · exact c1 h
      · have := d1 (c2 h); linarith
    · rintro ⟨h, _⟩; exact c3 h

/-- what is further asked of `exp` for the soft mapping of a tone -/
structure SaneExp (M : Libm) : Prop where
  mono : ∀ x y : F32, x ≤ y → y ≤ 0 → M.exp x ≤ M.exp y
  /-- `e^-13 > 2^-20` -/
  low : ∀ x : F32, -13 ≤ x → x ≤ 0 → rnd (pow2 (-20)) ≤ M.exp x

theorem neg_quot_mono {a b : ℚ} {ha hb} (h0 : 0 ≤ a) (hab : a ≤ b) (h1 : b ≤ 12) {W : F32} (hW : 0 < W) :
    -(fin b hb) * fin b hb / W ≤ -(fin a ha) * fin a ha / W := by
  have hn : ∀ {d : ℚ} {hd}, 0 ≤ d → d ≤ 12 → -(fin d hd) * fin d hd / W ≠ nan := fun h0 h1 =>
    ne_nan_left (neg_quot h0 h1 hW)
  refine F32.div_le_div_right ?_ hW (hn (h0.trans hab) h1) (hn h0 (hab.trans h1))
  rw [neg_fin, neg_fin, mul_fin, mul_fin]
  exact rnd_mono (by nlinarith)

/-- with a width of at least 0.1 the weight of the nearest class is at least `2^-20` -/
theorem near_weight {M : Libm} (hE : SaneExp M) {sigma : F32} (hs : 0.1 ≤ sigma) {d : ℚ} {hd} (h0 : 0 ≤ d)
    (h1 : d ≤ 1 / 2) :
    rnd (pow2 (-20)) ≤ M.exp (-(fin d hd) * fin d hd / (2 * F32.max sigma 1e-6 * F32.max sigma 1e-6)) := by
  apply hE.low _ _ (neg_quot h0 (by linarith) (width_pos sigma))
  have hmax : (0.1 : F32) ≤ F32.max sigma 1e-6 := F32.le_trans hs (F32.le_max_left (ne_nan_right hs))
  generalize F32.max sigma 1e-6 = s at *
  obtain ⟨q, hq, eq, q1, q2⟩ : ∃ q hq, (0.1 : F32) = fin q hq ∧ 0.0999 ≤ q ∧ q ≤ 0.1001 :=
    ⟨(0.1 : F32).val, by decide +kernel, by decide +kernel, by decide +kernel, by decide +kernel⟩
  obtain ⟨h2, e2⟩ : ∃ h, (2 : F32) = fin 2 h := ⟨by decide +kernel, by decide +kernel⟩
  obtain ⟨h13, e13⟩ : ∃ h, (-13 : F32) = fin (-13) h := ⟨by decide +kernel, by decide +kernel⟩
  have hs0 : (0 : F32) ≤ s := F32.le_trans (by decide +kernel) hmax
  -- the numerator is between -1/4 and 0
  have g4 : OnGrid (-1 / 4 : ℚ) ∧ |(-1 / 4 : ℚ)| < pow2 128 := by decide +kernel
  obtain ⟨hn, en, nl, nu⟩ := rnd_between (x := -d * d) g4 grid_zero (by nlinarith) (by nlinarith)
  rw [neg_fin, mul_fin, en]
  generalize rndQ (-d * d) = n at *
  rw [e13]
  obtain ⟨ga, ea⟩ : ∃ h, rnd (51 / 256) = fin (51 / 256) h := ⟨by decide +kernel, by decide +kernel⟩
  obtain ⟨gb, eb⟩ : ∃ h, rnd (81 / 4096) = fin (81 / 4096) h := ⟨by decide +kernel, by decide +kernel⟩
  have finish : ∀ W : F32, fin (81 / 4096) gb ≤ W → fin (-13) h13 ≤ fin n hn / W := by
    intro W hW
    have hW0 : (0 : F32) ≤ W := F32.le_trans (by rw [← eb]; decide +kernel) hW
    rcases nonneg_cases hW0 with rfl | ⟨w, hw, rfl, hw0⟩
    · rw [fin_div_inf, ← e13]; decide +kernel
    · rw [fin_le_fin] at hW
      have hw1 : 0 < w := _root_.lt_of_lt_of_le (by norm_num) hW
      rw [div_fin hw1.ne']
      refine fin_le_rnd ?_
      rw [le_div_iff₀ hw1]
      linarith
  apply finish
  rcases nonneg_cases hs0 with rfl | ⟨v, hv, rfl, hv0⟩
  · rw [← eb]; decide +kernel
  · rw [eq, fin_le_fin] at hmax
    have h2s : fin (51 / 256) ga ≤ 2 * fin v hv := by
      rw [e2, mul_fin]; refine fin_le_rnd ?_; linarith
    have h2s0 : (0 : F32) ≤ 2 * fin v hv := F32.le_trans (by rw [← ea]; decide +kernel) h2s
    rcases nonneg_cases h2s0 with e | ⟨w, hw, e, hw0⟩
    · rw [e, inf_mul_fin, if_neg (by linarith)]
      have : decide (v < 0) = false := by simp; linarith
      simp [this, le_def, toW]
    · rw [e, fin_le_fin] at h2s
      rw [e, mul_fin]
      refine fin_le_rnd ?_
      calc (81 / 4096 : ℚ) ≤ 51 / 256 * 0.0999 := by norm_num
        _ ≤ w * v := _root_.mul_le_mul h2s (q1.trans hmax) (by norm_num) hw0

/-! #### One contribution on an empty accumulator -/

theorem modify_get {k j : ℕ} {c : List F32} {v : F32} :
    (c.modify k (fun x => x + v)).getD j 0 = if k = j ∧ j < c.length then c.getD j 0 + v else c.getD j 0 := by
  rw [List.getD_eq_getElem?_getD, List.getD_eq_getElem?_getD, List.getElem?_modify]
  by_cases h : k = j
  · subst h
    by_cases hl : k < c.length
    · rw [List.getElem?_eq_getElem hl]; simp [hl]
    · rw [List.getElem?_eq_none (by omega)]; simp [hl]
  · simp [h]

theorem zero12_get (j : ℕ) : zero12.getD j 0 = 0 := by
  unfold zero12
  rw [List.getD_eq_getElem?_getD, List.getElem?_replicate]
  split_ifs <;> rfl

theorem zero_add_left (x : F32) : 0 + x = x := by rw [F32.add_comm]; exact add_zero_right x

/-- the vector after one contribution: entry `k` is the largest, positive, and entries away from `k`
vanish -/
def ToneVec (c : List F32) (k : ℕ) (radius : ℕ) (lo : F32) : Prop :=
  c.length = 12 ∧ k < 12 ∧ lo ≤ c.getD k 0 ∧ (∀ j < 12, 0 ≤ c.getD j 0 ∧ c.getD j 0 ≤ c.getD k 0) ∧
    ∀ j < 12, radius < (j + 12 - k) % 12 → radius < (k + 12 - j) % 12 → c.getD j 0 = 0

theorem tone_hard {semi p : F32} (hp : 0 ≤ p) : ∃ c, hardStep semi p zero12 = .ok c ∧
    ToneVec c (hardClass semi).toNat 0 p ∧ c.getD (hardClass semi).toNat 0 = p := by
  obtain ⟨k0, k1⟩ := hardClass_range semi
  generalize hk : (hardClass semi).toNat = k
  have hk12 : k < 12 := by omega
  unfold hardStep addAt
  rw [hk, if_pos (by exact hk12)]
  have hget : ∀ j, (zero12.modify k (fun x => x + p)).getD j 0 = if k = j then p else 0 := by
    intro j
    rw [modify_get, zero12_get, zero_add_left]
    by_cases h : k = j
    · rw [if_pos h, if_pos ⟨h, by subst h; exact hk12⟩]
    · rw [if_neg h, if_neg (fun hh => h hh.1)]
  have hself : (zero12.modify k (fun x => x + p)).getD k 0 = p := by rw [hget, if_pos rfl]
  refine ⟨_, rfl, ⟨by rw [List.length_modify]; rfl, hk12, ?_, ?_, ?_⟩, hself⟩
  · rw [hself]; exact F32.le_refl (ne_nan_right hp)
  · intro j _
    rw [hself, hget]
    split_ifs
    · exact ⟨hp, F32.le_refl (ne_nan_right hp)⟩
    · exact ⟨by decide +kernel, hp⟩
  · intro j hj h1 _
    rw [hget, if_neg]
    rintro rfl
    simp at h1

theorem mul_mono_left {p a b : F32} (hp0 : 0 ≤ p) (hp : p.isFinite = true) (ha : 0 ≤ a) (hb : b ≤ 1) (hab : a ≤ b) :
    p * a ≤ p * b := by
  have fa := isFinite_of_unit ha (F32.le_trans hab hb)
  have fb := isFinite_of_unit (F32.le_trans ha hab) hb
  exact F32.mul_le_mul_of_nonneg_left hab hp0 (mul_fin_ne_nan hp fa) (mul_fin_ne_nan hp fb)

theorem tone_soft {M : Libm} (hM : Sane M) (hE : SaneExp M) {sigma : F32} (hsg : 0.1 ≤ sigma) {x : ℚ} {hx}
    {p : F32} (hp0 : rnd (pow2 (-10)) ≤ p) (hp1 : p ≤ rnd (pow2 50)) :
    ∃ c k, softStep M sigma (fin x hx) p zero12 = .ok c ∧ ToneVec c k 1 (rnd (pow2 (-30))) ∧
      c.getD k 0 ≤ rnd (pow2 50) ∧ NearestClass x k (1 / 2 ^ 19) := by
  obtain ⟨v, hv, e, hv0, hv12⟩ := remEuclid_range (a := fin x hx) rfl
  obtain ⟨hP, a0, a1⟩ := primary_eq (hv := hv) hv0 hv12
  have hnear := abs_le.1 (roundAway_near v)
  obtain ⟨q, hq⟩ := remEuclid_near e
  have hp00 : 0 ≤ p := F32.le_trans (by decide +kernel) hp0
  have hpf : p.isFinite = true := isFinite_of_between (by decide +kernel) (by decide +kernel) hp00 hp1
  -- weights
  set w : ℤ → F32 := fun t => softWeight M sigma (fin v hv) t with hw
  have wr : ∀ t : ℤ, 0 ≤ t → t < 12 → 0 ≤ w t ∧ w t ≤ 1 := fun t h0 h1 => softWeight_range hM hv0 hv12 h0 h1
  generalize hR : roundAway v = n at *
  have hnq0 : (0 : ℚ) ≤ n := by exact_mod_cast a0
  have hnq1 : (n : ℚ) ≤ 12 := by exact_mod_cast a1
  have tm : ∀ z : ℤ, 0 ≤ z % 12 ∧ z % 12 < 12 := fun z => by omega
  have wexp : ∀ t : ℤ, 0 ≤ t → t < 12 → ∃ m hm, w t = M.exp (-(fin m hm) * fin m hm /
      (2 * F32.max sigma 1e-6 * F32.max sigma 1e-6)) ∧ 0 ≤ m ∧ m ≤ 12 ∧
      ((|v - t| ≤ 1 / 2 ∨ 23 / 2 ≤ |v - t|) → m ≤ 1 / 2) ∧
      ((1 / 2 ≤ |v - t| ∧ |v - t| ≤ 23 / 2) → 1 / 2 ≤ m) := by
    intro t h0 h1
    obtain ⟨m, hm, em, r⟩ := circ_val (hv := hv) hv0 hv12 h0 h1
    refine ⟨m, hm, ?_, r⟩
    rw [hw]
    show M.exp (-(F32.min _ _) * F32.min _ _ / _) = _
    rw [em]
  obtain ⟨m0, hm0, em0, m00, m012, m0n, -⟩ := wexp (n % 12) (tm n).1 (tm n).2
  have hm0h : m0 ≤ 1 / 2 := by
    apply m0n
    by_cases h : n = 12
    · right
      have e0 : n % 12 = 0 := by omega
      rw [e0]; subst h; push_cast at hnear ⊢
      rw [sub_zero, abs_of_nonneg hv0]; linarith
    · left
      have e0 : n % 12 = n := by omega
      rw [e0, abs_le]; constructor <;> linarith
  have w0lo : rnd (pow2 (-20)) ≤ w (n % 12) := by rw [em0]; exact near_weight hE hsg m00 hm0h
  have wle : ∀ off : ℤ, off = -1 ∨ off = 1 → w ((n + off) % 12) ≤ w (n % 12) := by
    intro off hoff
    obtain ⟨m, hm, em, m0', m12, -, mf⟩ := wexp ((n + off) % 12) (tm _).1 (tm _).2
    have hmh : 1 / 2 ≤ m := by
      apply mf
      -- the neighbour is at distance between 1/2 and 3/2 around the circle
      rcases hoff with rfl | rfl
      · by_cases h : n = 0
        · have e0 : (n + -1) % 12 = 11 := by omega
          rw [e0]; subst h; push_cast at hnear ⊢
          rw [abs_of_neg (by linarith)]; constructor <;> linarith
        · have e0 : (n + -1) % 12 = n - 1 := by omega
          rw [e0]; push_cast
          have : (1 : ℚ) ≤ n := by have : 1 ≤ n := by omega
                                   exact_mod_cast this
          rw [abs_of_nonneg (by linarith)]; constructor <;> linarith
      · by_cases h : n = 12
        · have e0 : (n + 1) % 12 = 1 := by omega
          rw [e0]; subst h; push_cast at hnear ⊢
          rw [abs_of_nonneg (by linarith)]; constructor <;> linarith
        · by_cases h' : n = 11
          · have e0 : (n + 1) % 12 = 0 := by omega
            rw [e0]; subst h'; push_cast at hnear ⊢
            rw [abs_of_nonneg (by linarith)]; constructor <;> linarith
          · have e0 : (n + 1) % 12 = n + 1 := by omega
            rw [e0]; push_cast
            rw [abs_of_neg (by linarith)]; constructor <;> linarith
    rw [em, em0]
    exact hE.mono _ _ (neg_quot_mono m00 (hm0h.trans hmh) m12 (width_pos sigma)) (neg_quot m00 m012 (width_pos sigma))
  -- indices
  have hP' : ∀ off : ℤ, (primaryClass (fin v hv) + off) % 12 = (n + off) % 12 := by intro off; rw [hP]; omega
  obtain ⟨km, hkm⟩ : ∃ km : ℕ, (km : ℤ) = (n + -1) % 12 := ⟨((n + -1) % 12).toNat, by have := tm (n + -1); omega⟩
  obtain ⟨k, hk⟩ : ∃ k : ℕ, (k : ℤ) = (n + 0) % 12 := ⟨((n + 0) % 12).toNat, by have := tm (n + 0); omega⟩
  obtain ⟨kp, hkp⟩ : ∃ kp : ℕ, (kp : ℤ) = (n + 1) % 12 := ⟨((n + 1) % 12).toNat, by have := tm (n + 1); omega⟩
  set c3 := ((zero12.modify km (fun y => y + p * w ((n + -1) % 12))).modify k (fun y => y + p * w ((n + 0) % 12))).modify kp
    (fun y => y + p * w ((n + 1) % 12)) with hc3
  have hstep : softStep M sigma (fin x hx) p zero12 = .ok c3 := by
    unfold softStep
    simp only [e, List.foldlM_cons, List.foldlM_nil, hP']
    rw [← hkm, ← hk, ← hkp]
    simp only [Int.toNat_natCast]
    unfold addAt
    rw [if_pos (by show km < 12; omega)]
    simp only [R.ok_bind]
    rw [if_pos (by rw [List.length_modify]; show k < 12; omega)]
    simp only [R.ok_bind]
    rw [if_pos (by rw [List.length_modify, List.length_modify]; show kp < 12; omega)]
    rw [hc3, hkm, hk, hkp]
    rfl
  have hlen : c3.length = 12 := by rw [hc3]; simp [zero12]
  have hl1 : (zero12.modify km (fun y => y + p * w ((n + -1) % 12))).length = 12 := by simp [zero12]
  have hl2 : ((zero12.modify km (fun y => y + p * w ((n + -1) % 12))).modify k (fun y => y + p * w ((n + 0) % 12))).length = 12 := by
    simp [zero12]
  have hget : ∀ j < 12, c3.getD j 0 = if km = j then p * w ((n + -1) % 12) else if k = j then p * w (n % 12)
      else if kp = j then p * w ((n + 1) % 12) else 0 := by
    intro j hj
    rw [hc3, modify_get, hl2, modify_get, hl1, modify_get, zero12_get]
    have hz : zero12.length = 12 := rfl
    rw [hz]
    have hd : km ≠ k ∧ k ≠ kp ∧ km ≠ kp := by omega
    simp only [hj, and_true, add_zero] at *
    by_cases h1 : km = j
    · subst h1
      rw [if_neg hd.2.2.symm, if_neg hd.1.symm, if_pos rfl, if_pos rfl, zero_add_left]
    · rw [if_neg h1, if_neg h1]
      by_cases h2 : k = j
      · subst h2
        rw [if_neg hd.2.1.symm, if_pos rfl, if_pos rfl, zero_add_left]
      · rw [if_neg h2, if_neg h2]
        by_cases h3 : kp = j
        · rw [if_pos h3, if_pos h3, zero_add_left]
        · rw [if_neg h3, if_neg h3]
  have hk12 : k < 12 := by have := tm (n + 0); omega
  have hself : c3.getD k 0 = p * w (n % 12) := by
    rw [hget k hk12, if_neg (by omega), if_pos rfl]
  have w0 := wr (n % 12) (tm n).1 (tm n).2
  have wm := wr ((n + -1) % 12) (tm _).1 (tm _).2
  have wp := wr ((n + 1) % 12) (tm _).1 (tm _).2
  have nn : ∀ y : F32, 0 ≤ y → y ≤ 1 → 0 ≤ p * y := fun y h0 h1 =>
    F32.mul_nonneg hp00 h0 (mul_fin_ne_nan hpf (isFinite_of_unit h0 h1))
  refine ⟨c3, k, hstep, ⟨hlen, hk12, ?_, ?_, ?_⟩, ?_, ⟨hk12, ?_⟩⟩
  · rw [hself]
    obtain ⟨g10, e10⟩ : ∃ h, rnd (pow2 (-10)) = fin (pow2 (-10)) h := ⟨by decide +kernel, by decide +kernel⟩
    obtain ⟨g20, e20⟩ : ∃ h, rnd (pow2 (-20)) = fin (pow2 (-20)) h := ⟨by decide +kernel, by decide +kernel⟩
    obtain ⟨g50, e50⟩ : ∃ h, rnd (pow2 50) = fin (pow2 50) h := ⟨by decide +kernel, by decide +kernel⟩
    rw [e10] at hp0; rw [e50] at hp1; rw [e20] at w0lo
    have w01 := w0.2
    rw [one_def] at w01
    obtain ⟨a, ha, rfl, a1, _⟩ := between_cases hp0 hp1
    obtain ⟨b, hb, eb, b1, _⟩ := between_cases w0lo w01
    rw [eb, mul_fin]
    apply rnd_mono
    have : pow2 (-30) = pow2 (-10) * pow2 (-20) := by decide +kernel
    rw [this]
    exact _root_.mul_le_mul a1 b1 (pow2_pos _).le ((pow2_pos _).le.trans a1)
  · intro j hj
    rw [hself, hget j hj]
    split_ifs
    · exact ⟨nn _ wm.1 wm.2, mul_mono_left hp00 hpf wm.1 w0.2 (wle (-1) (Or.inl rfl))⟩
    · exact ⟨nn _ w0.1 w0.2, F32.le_refl (ne_nan_right (nn _ w0.1 w0.2))⟩
    · exact ⟨nn _ wp.1 wp.2, mul_mono_left hp00 hpf wp.1 w0.2 (wle 1 (Or.inr rfl))⟩
    · exact ⟨by decide +kernel, nn _ w0.1 w0.2⟩
  · intro j hj h1 h2
    rw [hget j hj, if_neg (by omega), if_neg (by omega), if_neg (by omega)]
  · rw [hself]
    have h1 := mul_mono_left hp00 hpf w0.1 (by decide +kernel : (1 : F32) ≤ 1) w0.2
    have e1 : p * 1 = p := by
      obtain ⟨y, hy, rfl⟩ := isFinite_iff.1 hpf
      rw [one_def, mul_fin, mul_one, rnd_val hy]
    rw [e1] at h1
    exact F32.le_trans h1 hp1
  · have hkn : (k : ℤ) = n ∨ (k : ℤ) = n - 12 := by omega
    have hq' := abs_le.1 hq
    rcases hkn with h | h
    · refine ⟨q, ?_⟩
      have : (k : ℚ) = n := by exact_mod_cast h
      rw [this, abs_le]; constructor <;> linarith
    · refine ⟨q + 1, ?_⟩
      have : (k : ℚ) = n - 12 := by exact_mod_cast h
      rw [this, abs_le]; push_cast; constructor <;> linarith

theorem mem_getD {c : List F32} {x : F32} (h : x ∈ c) : ∃ j < c.length, c.getD j 0 = x := by
  obtain ⟨j, hj, rfl⟩ := List.mem_iff_getElem.1 h
  exact ⟨j, hj, by rw [List.getD_eq_getElem?_getD, List.getElem?_eq_getElem hj]; rfl⟩

theorem getD_mem' {c : List F32} {j : ℕ} (h : j < c.length) : c.getD j 0 ∈ c := by
  rw [List.getD_eq_getElem?_getD, List.getElem?_eq_getElem h]; exact List.getElem_mem h

/-- a finite norm: entries up to `2^50` -/
theorem norm_fin_of_le {c : List F32} (h : ∀ x ∈ c, 0 ≤ x ∧ x ≤ rnd (pow2 50)) : (norm2 c).isFinite = true := by
  obtain ⟨g50, e50⟩ : ∃ h, rnd (pow2 50) = fin (pow2 50) h := ⟨by decide +kernel, by decide +kernel⟩
  have hsq : ∀ y ∈ c.map (fun x => x * x), 0 ≤ y ∧ y ≤ rnd (pow2 101) := by
    intro y hy
    obtain ⟨x, hx, rfl⟩ := List.mem_map.1 hy
    obtain ⟨h0, h1⟩ := h x hx
    rw [e50] at h1; rw [zero_def] at h0
    obtain ⟨v, hv, rfl, v0, v1⟩ := between_cases h0 h1
    rw [mul_fin]
    refine ⟨rnd_nonneg (by positivity), rnd_mono ?_⟩
    have : pow2 50 * pow2 50 ≤ pow2 101 := by decide +kernel
    exact (_root_.mul_le_mul v1 v1 v0 (v0.trans v1)).trans this
  have hs := sum_sat_aux hsq 0 (by decide +kernel) (by decide +kernel)
  have hs0 : 0 ≤ F32.sum (c.map (fun x => x * x)) := sum_nonneg (fun y hy => (hsq y hy).1)
  exact isFinite_of_between (lo := 0) (hi := F32.sqrt (rnd (pow2 126))) (by decide +kernel) (by decide +kernel)
    (sqrt_nonneg hs0) (sqrt_mono hs0 hs)

/-- normalising a tone vector keeps its shape, and gives it unit length -/
theorem tone_unit {c : List F32} {k r : ℕ} (h : ToneVec c k r (rnd (pow2 (-30)))) (hb : c.getD k 0 ≤ rnd (pow2 50)) :
    ToneVec (unitOrKeep c) k r 0.25 ∧ |exactSq (unitOrKeep c) - 1| ≤ 18 / 2 ^ 22 := by
  obtain ⟨hl, hk, hlo, hle, hz⟩ := h
  have hent : ∀ x ∈ c, 0 ≤ x ∧ x ≤ rnd (pow2 50) := by
    intro x hx
    obtain ⟨j, hj, rfl⟩ := mem_getD hx
    obtain ⟨a, b⟩ := hle j (by omega)
    exact ⟨a, F32.le_trans b hb⟩
  have hmag : Mags c := fun x hx => ⟨(hent x hx).1, isFinite_of_between (lo := 0) (hi := rnd (pow2 50))
    (by decide +kernel) (by decide +kernel) (hent x hx).1 (hent x hx).2⟩
  have hfin := norm_fin_of_le hent
  have hn : EPS < norm2 c := by
    have h1 : EPS < rnd (pow2 (-30)) := by decide +kernel
    rcases le_norm2 hmag (getD_mem' (by omega : k < c.length)) with h2 | h2
    · exact absurd (F32.lt_of_le_of_lt hlo h2) (by decide +kernel)
    · exact F32.lt_of_lt_of_le h1 (F32.le_trans hlo h2)
  have eu : unitOrKeep c = c.map (fun x => x / norm2 c) := if_pos hn
  have hu := unit_norm hmag (by rw [hl]; norm_num) hn hfin
  have e18 : ((c.length : ℚ) + 6) / 2 ^ 22 = 18 / 2 ^ 22 := by rw [hl]; norm_num
  rw [e18] at hu
  have hn0 : 0 < norm2 c := F32.lt_trans (by decide +kernel) hn
  have hr := unitOrKeep_range hmag
  rw [eu] at hr ⊢
  have hget : ∀ j < 12, (c.map (fun x => x / norm2 c)).getD j 0 = c.getD j 0 / norm2 c := by
    intro j hj
    rw [List.getD_eq_getElem?_getD, List.getElem?_map, List.getD_eq_getElem?_getD, List.getElem?_eq_getElem (by omega)]
    rfl
  have hdn : ∀ j < 12, c.getD j 0 / norm2 c ≠ nan := fun j hj =>
    div_fin_ne_nan (hmag _ (getD_mem' (by omega))).2 hn0
  have hmono : ∀ j < 12, (c.map (fun x => x / norm2 c)).getD j 0 ≤ (c.map (fun x => x / norm2 c)).getD k 0 := by
    intro j hj
    rw [hget j hj, hget k hk]
    exact F32.div_le_div_right (hle j hj).2 hn0 (hdn j hj) (hdn k hk)
  have hl' : (c.map (fun x => x / norm2 c)).length = 12 := by rw [List.length_map]; exact hl
  refine ⟨⟨hl', hk, ?_, ?_, ?_⟩, hu⟩
  · -- the largest of twelve entries of a unit vector
    set u := c.map (fun x => x / norm2 c) with hud
    clear_value u
    obtain ⟨y, hy, ey⟩ := isFinite_iff.1 (isFinite_of_unit (hr _ (getD_mem' (by omega : k < u.length))).1
      (hr _ (getD_mem' (by omega : k < u.length))).2)
    rw [ey] at hmono ⊢
    have hy0 : 0 ≤ y := by
      have := (hr _ (getD_mem' (by omega : k < u.length))).1
      rw [ey, zero_def, fin_le_fin] at this; exact this
    obtain ⟨g, eg⟩ : ∃ h, (0.25 : F32) = fin (1 / 4) h := ⟨by decide +kernel, by decide +kernel⟩
    rw [eg, fin_le_fin]
    by_contra hc
    have hc := not_le.1 hc
    have hbound : sqSum u ≤ u.length • (1 / 16 : ℚ) := by
      unfold sqSum
      have := List.sum_le_card_nsmul (u.map (fun x => x.val * x.val)) (1 / 16) (by
        intro z hz
        obtain ⟨x, hx, rfl⟩ := List.mem_map.1 hz
        obtain ⟨j, hj, rfl⟩ := mem_getD hx
        have h1 := hmono j (by omega)
        have h0 := (hr _ hx).1
        generalize u.getD j 0 = z at h0 h1 ⊢
        rw [zero_def] at h0
        obtain ⟨v, hv, rfl, v0, v1⟩ := between_cases h0 h1
        show v * v ≤ 1 / 16
        nlinarith)
      rwa [List.length_map] at this
    rw [hl'] at hbound
    have := (abs_le.1 hu).1
    norm_num at hbound this
    linarith
  · intro j hj
    exact ⟨(hr _ (getD_mem' (by omega))).1, hmono j hj⟩
  · intro j hj h1 h2
    rw [hget j hj, hz j hj h1 h2]
    obtain ⟨v, hv, ev⟩ := isFinite_iff.1 hfin
    rw [ev] at hn0 ⊢
    rw [zero_def, fin_lt_fin] at hn0
    rw [zero_def, div_fin hn0.ne', zero_div, rnd_zero, zero_def]

theorem semitone_small {M : Libm} (hM : Sane M) {f tuning : F32} (hf : FMIN ≤ f) (hf' : f ≤ FMAX)
    (ht : tuning.abs ≤ 1048576) {s : ℚ} {hs} (e : semitone M f tuning = fin s hs) : |s| ≤ 2 ^ 23 := by
  obtain ⟨h1, e1⟩ : ∃ h, FMIN = fin 100 h := ⟨by decide +kernel, by decide +kernel⟩
  obtain ⟨h2, e2⟩ : ∃ h, FMAX = fin 5000 h := ⟨by decide +kernel, by decide +kernel⟩
  obtain ⟨h3, e3⟩ : ∃ h, A4 = fin 440 h := ⟨by decide +kernel, by decide +kernel⟩
  obtain ⟨h5, e5⟩ : ∃ h, SEMI = fin 57 h := ⟨by decide +kernel, by decide +kernel⟩
  obtain ⟨h6, e6⟩ : ∃ h, (1048576 : F32) = fin 1048576 h := ⟨by decide +kernel, by decide +kernel⟩
  obtain ⟨h12, e12⟩ := twelve
  rw [e1] at hf; rw [e2] at hf'
  obtain ⟨v, hv, rfl, hv0, hv1⟩ := between_cases hf hf'
  have g8 : OnGrid (1 / 8 : ℚ) ∧ |(1 / 8 : ℚ)| < pow2 128 := by decide +kernel
  have g16 : OnGrid (16 : ℚ) ∧ |(16 : ℚ)| < pow2 128 := by decide +kernel
  obtain ⟨hq, e4, l, u⟩ := rnd_between (x := v / 440) g8 g16 (by rw [le_div_iff₀ (by norm_num)]; linarith)
    (by rw [div_le_iff₀ (by norm_num)]; linarith)
  unfold semitone at e
  rw [e3, div_fin (by norm_num), e4] at e
  obtain ⟨y, hy, ey, hyb⟩ := hM.log2_range (fin (rndQ (v / 440)) hq) (by rw [zero_def, fin_lt_fin]; linarith) rfl
  rw [ey, e12, mul_fin, e5] at e
  have g12 : OnGrid (2400 : ℚ) ∧ |(2400 : ℚ)| < pow2 128 := by decide +kernel
  have hyb' := abs_le.1 hyb
  obtain ⟨hz, ez, hzb⟩ := rnd_finite_of_abs_le (q := 12 * y) g12 (by rw [abs_le]; constructor <;> linarith)
  rw [ez, add_fin] at e
  generalize rndQ (12 * y) = z at *
  have g13 : OnGrid (4096 : ℚ) ∧ |(4096 : ℚ)| < pow2 128 := by decide +kernel
  have hzb' := abs_le.1 hzb
  obtain ⟨hw, ew, hwb⟩ := rnd_finite_of_abs_le (q := z + 57) g13 (by rw [abs_le]; constructor <;> linarith)
  rw [ew] at e
  generalize rndQ (z + 57) = w at *
  rcases tuning with _ | b | ⟨t, htg⟩
  · exact absurd ht (by decide +kernel)
  · cases b <;> exact absurd ht (by decide +kernel)
  · rw [abs_fin, e6, fin_le_fin] at ht
    rw [sub_fin] at e
    have g23 : OnGrid (2 ^ 23 : ℚ) ∧ |(2 ^ 23 : ℚ)| < pow2 128 := by decide +kernel
    have a1 := abs_le.1 hwb
    have a2 := abs_le.1 ht
    obtain ⟨hr, er, hrb⟩ := rnd_finite_of_abs_le (q := w - t) g23 (by rw [abs_le]; constructor <;> linarith)
    rw [er] at e
    have : rndQ (w - t) = s := by injection e
    rw [← this]; exact hrb

/-- **C67: a single tone gives the nearest pitch class.** A frame whose only positive magnitude is at a
bin between 100 Hz and 5 kHz (below the Nyquist frequency), of audible size: the chroma vector has unit
length, its largest entry is at the pitch class nearest to `12 log2(f / 440) + 57 - tuning` (A is 9, C
is 0), at least a quarter; hard mapping leaves every other entry at zero, soft mapping touches only the
two neighbouring classes. -/
theorem C67_tone (M : Libm) (hM : Sane M) (sr fft : ℕ) (hs : sr ≤ 2 ^ 64) (hf : 0 < fft) (hf' : fft ≤ 2 ^ 64)
    (soft : Bool) (hE : soft = true → SaneExp M) (sigma : F32) (hsg : soft = true → 0.1 ≤ sigma) (tuning : F32)
    (ht : tuning.abs ≤ 1048576) (frame : List F32) (hl : frame.length ≤ 2 ^ 64) (i : ℕ) (m : F32)
    (hm : frame[i]? = some m) (hm0 : 0 < m) (hother : ∀ (j : ℕ) (x : F32), frame[j]? = some x → j ≠ i → ¬ 0 < x)
    (f : F32) (hfr : f = F32.ofNat i * (F32.ofNat sr / F32.ofNat fft)) (h1 : 100 ≤ f) (h2 : f ≤ 5000)
    (h3 : f < F32.ofNat sr / 2) (hp0 : rnd (pow2 (-10)) ≤ M.powf m 0.6) (hp1 : M.powf m 0.6 ≤ rnd (pow2 50)) :
    ∃ c k s, frameToChroma M sr fft soft sigma tuning frame = .ok c ∧ c.length = 12 ∧ k < 12 ∧
      12 * M.log2 (f / 440) + 57 - tuning = s ∧ NearestClass s.val k (1 / 2 ^ 19) ∧
      0.25 ≤ c.getD k 0 ∧ (∀ j < 12, 0 ≤ c.getD j 0 ∧ c.getD j 0 ≤ c.getD k 0) ∧
      |exactSq c - 1| ≤ 18 / 2 ^ 22 ∧
      (∀ j < 12, j ≠ k → soft = false → c.getD j 0 = 0) ∧
      ∀ j < 12, 1 < (j + 12 - k) % 12 → 1 < (k + 12 - j) % 12 → c.getD j 0 = 0 := by
  have htf : tuning.isFinite = true := by
    rw [← isFinite_abs]
    rcases tuning with _ | s | ⟨v, hv⟩
    · exact absurd ht (by decide +kernel)
    · cases s <;> exact absurd ht (by decide +kernel)
    · rfl
  have hF1 : FMIN ≤ f := h1
  have hF2 : f ≤ FMAX := h2
  have hF3 : f < nyquist sr := h3
  have hsf := semitone_finite hM hF1 hF2 htf
  have hmax : F32.max m 0 = m := by
    unfold F32.max
    have : m.isNaN = false := by
      rcases m with _ | _ | _
      · exact absurd rfl (ne_nan_right' hm0)
      all_goals rfl
    rw [if_neg (by simp [this]), if_neg (by decide +kernel), if_neg]
    exact fun h => F32.lt_irrefl _ (F32.lt_trans h hm0)
  have hloop := binLoop_tone hM hs hf hf' soft sigma htf (m := m) (by rw [← hfr]; exact hF1) (by rw [← hfr]; exact hF2)
    (by rw [← hfr]; exact hF3) frame 0 (Nat.zero_le i) (by simpa using hm)
    (fun j x hj hne => hother j x hj (by omega)) (by omega)
  rw [← hfr, hmax] at hloop
  obtain ⟨s, hsg', es⟩ := isFinite_iff.1 hsf
  rw [es] at hloop
  have hsemi : 12 * M.log2 (f / 440) + 57 - tuning = fin s hsg' := es
  cases soft
  · have hp00 : 0 ≤ M.powf m 0.6 := F32.le_trans (by decide +kernel) hp0
    obtain ⟨c, e, hT, hself⟩ := tone_hard (semi := fin s hsg') hp00
    have hmap : mapStep M false sigma (fin s hsg') (M.powf m 0.6) zero12 = .ok c := e
    rw [hmap] at hloop
    have hT' : ToneVec c (hardClass (fin s hsg')).toNat 0 (rnd (pow2 (-30))) := by
      obtain ⟨a, b, c', d⟩ := hT
      exact ⟨a, b, F32.le_trans (F32.le_trans (by decide +kernel) hp0) c', d⟩
    obtain ⟨⟨u1, u2, u3, u4, u5⟩, u6⟩ := tone_unit hT' (by rw [hself]; exact hp1)
    have hsb : |s| ≤ 2 ^ 23 := semitone_small hM hF1 hF2 ht es
    have hnear := hardClass_nearest (hv := hsg') hsb
    refine ⟨unitOrKeep c, _, fin s hsg', by unfold frameToChroma; rw [hloop]; rfl, u1, u2, hsemi, ?_, u3, u4, u6, ?_, ?_⟩
    · obtain ⟨a, q, hq⟩ := hnear
      exact ⟨a, q, hq.trans (by norm_num)⟩
    · intro j hj hne _
      exact u5 j hj (by omega) (by omega)
    · intro j hj d1 d2
      exact u5 j hj (by omega) (by omega)
  · obtain ⟨c, k, e, hT, hb, hnear⟩ := tone_soft hM (hE rfl) (hsg rfl) (hx := hsg') hp0 hp1
    have hmap : mapStep M true sigma (fin s hsg') (M.powf m 0.6) zero12 = .ok c := e
    rw [hmap] at hloop
    obtain ⟨⟨u1, u2, u3, u4, u5⟩, u6⟩ := tone_unit hT hb
    exact ⟨unitOrKeep c, k, fin s hsg', by unfold frameToChroma; rw [hloop]; rfl, u1, u2, hsemi, hnear, u3, u4, u6,
      by simp, u5⟩

/-- a library for the example: `e^x` is one half down to -0.4 and a quarter below -/
def toneLibm : Libm := { saneLibm with exp := fun x => if x < -0.4 then 0.25 else 0.5 }

theorem sane_tone : Sane toneLibm where
  powf_range := sane_demo.powf_range
  powf_zero := sane_demo.powf_zero
  exp_range := by
    intro x _
    show 0 ≤ (if x < -0.4 then (0.25 : F32) else 0.5) ∧ (if x < -0.4 then (0.25 : F32) else 0.5) ≤ 1
    split_ifs <;> decide +kernel
  log2_range := sane_demo.log2_range

theorem saneExp_tone : SaneExp toneLibm where
  mono := by
    intro x y h _
    show (if x < -0.4 then (0.25 : F32) else 0.5) ≤ (if y < -0.4 then (0.25 : F32) else 0.5)
    by_cases hx : x < -0.4
    · rw [if_pos hx]; split_ifs <;> decide +kernel
    · rw [if_neg hx, if_neg (fun hy => hx (F32.lt_of_le_of_lt h hy))]; decide +kernel
  low := by
    intro x _ _
    show rnd (pow2 (-20)) ≤ (if x < -0.4 then (0.25 : F32) else 0.5)
    split_ifs <;> decide +kernel

/-- 440 Hz at bin 1 of an 880 Hz wide transform: pitch class A, with its two neighbours under soft
mapping -/
example : frameToChroma toneLibm 1760 4 false 0.5 0 [0, 1, 0] = .ok [0, 0, 0, 0, 0, 0, 0, 0, 0, 1, 0, 0] ∧
    (∃ x y : F32, frameToChroma toneLibm 1760 4 true 0.5 0 [0, 1, 0] = .ok [0, 0, 0, 0, 0, 0, 0, 0, x, y, x, 0] ∧
      0 < x ∧ x < y) ∧
    F32.ofNat 1 * (F32.ofNat 1760 / F32.ofNat 4) = 440 ∧ 12 * toneLibm.log2 (440 / 440) + 57 - 0 = 57 := by
  refine ⟨by decide +kernel, ?_, by decide +kernel, by decide +kernel⟩
  refine ⟨((frameToChroma toneLibm 1760 4 true 0.5 0 [0, 1, 0]).toOption.getD []).getD 8 0,
    ((frameToChroma toneLibm 1760 4 true 0.5 0 [0, 1, 0]).toOption.getD []).getD 9 0, ?_, ?_, ?_⟩ <;> decide +kernel

/-- its hypotheses -/
example : rnd (pow2 (-10)) ≤ toneLibm.powf 1 0.6 ∧ toneLibm.powf 1 0.6 ≤ rnd (pow2 50) ∧ (100 : F32) ≤ 440 ∧
    (440 : F32) ≤ 5000 ∧ (440 : F32) < F32.ofNat 1760 / 2 := by decide +kernel

end Verif.Props
