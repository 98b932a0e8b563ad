/-
Harmonic pitch-class profiles: shape, range, silence, peaks (C78, C79).
-/
import Verif.Props.Chroma
import Verif.Props.BeatChroma
import Verif.Model.Hpcp

namespace Verif.Props
open Verif F32 Chroma Hpcp

/-! ### The checks on a spectrogram -/

theorem checkSpec_ok {spec : List (List F32)} (hne : spec ≠ []) (h1 : ∀ fr ∈ spec, fr ≠ [])
    (h2 : ∀ a ∈ spec, ∀ b ∈ spec, a.length = b.length) : checkSpec spec = .ok () := by
  rcases spec with _ | ⟨f, fs⟩
  · exact absurd rfl hne
  unfold checkSpec
  have hf : ((f :: fs).headD []).length ≠ 0 := by
    have := h1 f (by simp)
    simpa using this
  have hr : ragged (f :: fs) = false := by
    unfold ragged
    rw [List.any_eq_false]
    intro x hx
    have := h2 x hx f (by simp)
    simp [this]
  rw [if_neg hf, hr]; rfl

theorem checkSpec_err {spec : List (List F32)}
    (h : (∃ fr ∈ spec, fr = []) ∨ ∃ a ∈ spec, ∃ b ∈ spec, a.length ≠ b.length) :
    checkSpec spec = R.err .invalidInput := by
  rcases spec with _ | ⟨f, fs⟩
  · simp at h
  unfold checkSpec
  by_cases hf : ((f :: fs).headD []).length = 0
  · rw [if_pos hf]
  · rw [if_neg hf]
    have hr : ragged (f :: fs) = true := by
      by_contra hr
      have hr : ragged (f :: fs) = false := by simpa using hr
      unfold ragged at hr
      rw [List.any_eq_false] at hr
      have heq : ∀ x ∈ f :: fs, x.length = f.length := by
        intro x hx
        have := hr x hx
        simpa using this
      rcases h with ⟨x, hx, rfl⟩ | ⟨a, ha, b, hb, hab⟩
      · have := heq [] hx
        exact hf (by simpa using this.symm)
      · exact hab ((heq a ha).trans (heq b hb).symm)
    rw [hr]; rfl

/-! ### Shape -/

theorem harmonics_len (M : Libm) (powi : F32 → ℕ → F32) (g : Cfg) (fmin fmax f0 w0 : F32) :
    ∀ (n h : ℕ) (c : List F32), c.length = 12 →
      ∃ c', harmonics M powi g fmin fmax f0 w0 n h c = .ok c' ∧ c'.length = 12 := by
  intro n
  induction n with
  | zero => intro h c hc; exact ⟨c, rfl, hc⟩
  | succ n ih =>
    intro h c hc
    unfold harmonics
    split_ifs
    · exact ⟨c, rfl, hc⟩
    · exact ih _ _ hc
    · obtain ⟨c1, e1, k1⟩ := mapStep_len M true g.sigma (semitone M (f0 * F32.ofNat h) g.tuning)
        (w0 * (powi (F32.clamp g.decay 0 1) (h - 1) / F32.ofNat h)) hc
      unfold mapStep at e1
      rw [if_pos rfl] at e1
      dsimp only
      rw [e1]
      exact ih _ _ k1

theorem addPeak_len (M : Libm) (powi : F32 → ℕ → F32) (g : Cfg) (fmin fmax : F32) (frame c : List F32) (p : ℕ × F32)
    (hc : c.length = 12) : ∃ c', addPeak M powi g fmin fmax frame c p = .ok c' ∧ c'.length = 12 := by
  unfold addPeak
  dsimp only
  split_ifs
  · exact ⟨c, rfl, hc⟩
  · exact ⟨c, rfl, hc⟩
  · exact harmonics_len M powi g fmin fmax _ _ _ _ c hc

theorem addPeaks_len (M : Libm) (powi : F32 → ℕ → F32) (g : Cfg) (fmin fmax : F32) (frame : List F32) :
    ∀ (ps : List (ℕ × F32)) (c : List F32), c.length = 12 →
      ∃ c', ps.foldlM (addPeak M powi g fmin fmax frame) c = .ok c' ∧ c'.length = 12 := by
  intro ps
  induction ps with
  | nil => intro c hc; exact ⟨c, rfl, hc⟩
  | cons p ps ih =>
    intro c hc
    obtain ⟨c1, e1, k1⟩ := addPeak_len M powi g fmin fmax frame c p hc
    rw [List.foldlM_cons, e1]
    exact ih _ k1

theorem hpcp_len (M : Libm) (powi : F32 → ℕ → F32) (sel : ℕ → List (ℕ × F32) → List (ℕ × F32)) (g : Cfg)
    (fminHz fmaxHz : F32) (frame : List F32) :
    ∃ c, frameToHpcp M powi sel g fminHz fmaxHz frame = .ok c ∧ c.length = 12 := by
  unfold frameToHpcp
  by_cases h1 : frame = [] ∨ g.sr = 0 ∨ g.fft = 0
  · rw [if_pos h1]; exact ⟨_, rfl, rfl⟩
  rw [if_neg h1]
  dsimp only
  by_cases h2 : F32.min fmaxHz (F32.ofNat g.sr / 2) ≤ F32.max fminHz 20
  · rw [if_pos h2]; exact ⟨_, rfl, rfl⟩
  rw [if_neg h2]
  by_cases h3 : framePeaks g (F32.max fminHz 20) (F32.min fmaxHz (F32.ofNat g.sr / 2)) frame = []
  · rw [if_pos h3]; exact ⟨_, rfl, rfl⟩
  rw [if_neg h3]
  obtain ⟨c, e, k⟩ := addPeaks_len M powi g (F32.max fminHz 20) (F32.min fmaxHz (F32.ofNat g.sr / 2)) frame
    (sel _ (framePeaks g (F32.max fminHz 20) (F32.min fmaxHz (F32.ofNat g.sr / 2)) frame)) zero12 rfl
  rw [e]
  exact ⟨unitOrKeep c, rfl, by rw [length_unitOrKeep]; exact k⟩

theorem mapM_total {f : List F32 → R (List F32)} {P : List F32 → List F32 → Prop} {spec : List (List F32)}
    (h : ∀ fr ∈ spec, ∃ c, f fr = .ok c ∧ P fr c) :
    ∃ cs, spec.mapM f = .ok cs ∧ List.Forall₂ P spec cs := by
  induction spec with
  | nil => exact ⟨[], rfl, .nil⟩
  | cons fr spec ih =>
    obtain ⟨c, e, hp⟩ := h fr (by simp)
    obtain ⟨cs, e', hps⟩ := ih (fun x hx => h x (by simp [hx]))
    exact ⟨c :: cs, by rw [List.mapM_cons, e, R.ok_bind, e']; rfl, .cons hp hps⟩

/-- **C78, shape.** Both extractors answer with one profile of twelve entries and one energy per frame when the frames are
non-empty and of equal length, and with `InvalidInput` otherwise; they never panic.  No assumption on the values, the
settings, the mathematical library or the selection of peaks. -/
theorem C78_shape (M : Libm) (powi : F32 → ℕ → F32) (sel : ℕ → List (ℕ × F32) → List (ℕ × F32)) (g : Cfg)
    (bassFmin bassFmax weight : F32) (spec : List (List F32)) :
    ((∀ fr ∈ spec, fr ≠ []) → (∀ a ∈ spec, ∀ b ∈ spec, a.length = b.length) →
      (∃ cs es, hpcpOfSpec M powi sel g spec = .ok (cs, es) ∧ cs.length = spec.length ∧ es.length = spec.length ∧
        ∀ c ∈ cs, c.length = 12) ∧
      (∃ cs es, bassBlend M powi sel g bassFmin bassFmax weight spec = .ok (cs, es) ∧ cs.length = spec.length ∧
        es.length = spec.length ∧ ∀ c ∈ cs, c.length = 12)) ∧
    (((∃ fr ∈ spec, fr = []) ∨ ∃ a ∈ spec, ∃ b ∈ spec, a.length ≠ b.length) →
      hpcpOfSpec M powi sel g spec = R.err .invalidInput ∧
      bassBlend M powi sel g bassFmin bassFmax weight spec = R.err .invalidInput) := by
  by_cases hne : spec = []
  · subst hne
    exact ⟨fun _ _ => ⟨⟨[], [], rfl, rfl, rfl, by simp⟩, ⟨[], [], rfl, rfl, rfl, by simp⟩⟩, by simp⟩
  constructor
  · intro h1 h2
    have hck := checkSpec_ok hne h1 h2
    constructor
    · obtain ⟨cs, e, hp⟩ := mapM_total (f := frameToHpcp M powi sel g FMIN FMAX) (P := fun _ c => c.length = 12) (spec := spec)
        (fun fr _ => hpcp_len M powi sel g FMIN FMAX fr)
      refine ⟨cs, spec.map energy, ?_, hp.length_eq.symm, by simp, ?_⟩
      · unfold hpcpOfSpec
        rw [if_neg hne, hck, R.ok_bind, e]; rfl
      · intro c hc
        obtain ⟨i, hi, rfl⟩ := List.mem_iff_getElem.1 hc
        exact (List.forall₂_iff_get.1 hp).2 i (by rw [hp.length_eq]; exact hi) hi
    · obtain ⟨cs, e, hp⟩ := mapM_total (f := fun fr => do
        let full ← frameToHpcp M powi sel g FMIN FMAX fr
        let bass ← frameToHpcp M powi sel { g with peaks := Nat.min (Nat.max g.peaks 1) 12 } bassFmin bassFmax fr
        pure (blend (F32.clamp weight 0 1) full bass)) (P := fun _ c => c.length = 12) (spec := spec) (fun fr _ => by
          obtain ⟨a, ea, la⟩ := hpcp_len M powi sel g FMIN FMAX fr
          obtain ⟨b, eb, lb⟩ := hpcp_len M powi sel { g with peaks := Nat.min (Nat.max g.peaks 1) 12 } bassFmin bassFmax fr
          refine ⟨blend (F32.clamp weight 0 1) a b, ?_, ?_⟩
          · rw [ea, R.ok_bind, eb]; rfl
          · unfold blend
            rw [length_unitOrKeep, List.length_zipWith, la, lb]; rfl)
      refine ⟨cs, spec.map energy, ?_, hp.length_eq.symm, by simp, ?_⟩
      · unfold bassBlend
        rw [if_neg hne, hck, R.ok_bind, e]; rfl
      · intro c hc
        obtain ⟨i, hi, rfl⟩ := List.mem_iff_getElem.1 hc
        exact (List.forall₂_iff_get.1 hp).2 i (by rw [hp.length_eq]; exact hi) hi
  · intro h
    have hck := checkSpec_err h
    constructor
    · unfold hpcpOfSpec; rw [if_neg hne, hck]; rfl
    · unfold bassBlend; rw [if_neg hne, hck]; rfl

/-! ### Range -/

/-- what is asked of `powf` with an exponent between 0.05 and 1, and of `powi` on the unit interval -/
structure PowSane (M : Libm) (powi : F32 → ℕ → F32) : Prop where
  powf_range : ∀ x p : F32, 0 ≤ x → x ≤ rnd (pow2 76) → 0.05 ≤ p → p ≤ 1 → 0 ≤ M.powf x p ∧ M.powf x p ≤ rnd (pow2 77)
  powf_zero : ∀ p : F32, 0.05 ≤ p → p ≤ 1 → M.powf 0 p = 0
  powi_range : ∀ (x : F32) (n : ℕ), 0 ≤ x → x ≤ 1 → 0 ≤ powi x n ∧ powi x n ≤ 1

/-- the semitone of a frequency between 20 Hz and `2^63` Hz is a finite number -/
theorem semitone_finite' {M : Libm} (hM : Sane M) {f tuning : F32} (hf : 20 ≤ f) (hf' : f ≤ rnd (pow2 63))
    (ht : tuning.isFinite = true) : (semitone M f tuning).isFinite = true := by
  obtain ⟨h1, e1⟩ : ∃ h, (20 : F32) = fin 20 h := ⟨by decide +kernel, by decide +kernel⟩
  obtain ⟨h2, e2⟩ : ∃ h, rnd (pow2 63) = fin (pow2 63) h := ⟨by decide +kernel, by decide +kernel⟩
  obtain ⟨h3, e3⟩ : ∃ h, A4 = fin 440 h := ⟨by decide +kernel, by decide +kernel⟩
  obtain ⟨h5, e5⟩ : ∃ h, SEMI = fin 57 h := ⟨by decide +kernel, by decide +kernel⟩
  obtain ⟨h12, e12⟩ := twelve
  rw [e1] at hf; rw [e2] at hf'
  obtain ⟨v, hv, rfl, hv0, hv1⟩ := between_cases hf hf'
  have g8 : OnGrid (1 / 32 : ℚ) ∧ |(1 / 32 : ℚ)| < pow2 128 := by decide +kernel
  obtain ⟨hq, e4, l, u⟩ := rnd_between (x := v / 440) g8 h2 (by rw [le_div_iff₀ (by norm_num)]; linarith)
    (by rw [div_le_iff₀ (by norm_num)]; have := pow2_pos 63; nlinarith)
  unfold semitone
  rw [e3, div_fin (by norm_num), e4]
  obtain ⟨y, hy, ey, hyb⟩ := hM.log2_range (fin (rndQ (v / 440)) hq) (by rw [zero_def, fin_lt_fin]; linarith) rfl
  rw [ey, e12, mul_fin, e5]
  have g12 : OnGrid (2400 : ℚ) ∧ |(2400 : ℚ)| < pow2 128 := by decide +kernel
  have hyb' := abs_le.1 hyb
  obtain ⟨hz, ez, hzb⟩ := rnd_finite_of_abs_le (q := 12 * y) g12 (by rw [abs_le]; constructor <;> linarith)
  rw [ez, add_fin]
  generalize rndQ (12 * y) = z at *
  have g13 : OnGrid (4096 : ℚ) ∧ |(4096 : ℚ)| < pow2 128 := by decide +kernel
  have hzb' := abs_le.1 hzb
  obtain ⟨hw, ew, hwb⟩ := rnd_finite_of_abs_le (q := z + 57) g13 (by rw [abs_le]; constructor <;> linarith)
  rw [ew]
  generalize rndQ (z + 57) = w at *
  obtain ⟨t, htg, rfl⟩ := isFinite_iff.1 ht
  rw [sub_fin]
  have hmax : rndQ (pow2 128 - pow2 104 + 4096) = pow2 128 - pow2 104 := by decide +kernel
  have htb : |t| ≤ pow2 128 - pow2 104 := max_finite htg
  have hd : |w - t| ≤ pow2 128 - pow2 104 + 4096 := by
    have := abs_sub w t
    linarith
  have : |rndQ (w - t)| < pow2 128 := by
    rw [abs_rndQ]
    have := rndQ_mono hd
    rw [hmax] at this
    have := pow2_pos 104
    linarith
  rw [rnd_of_lt this]; rfl

/-- a share of something in the unit interval -/
theorem share {x : F32} (h0 : 0 ≤ x) (h1 : x ≤ 1) {h : ℕ} (hh : 1 ≤ h) (hh' : h ≤ 2 ^ 64) :
    0 ≤ x / F32.ofNat h ∧ x / F32.ofNat h ≤ 1 :=
  div_le_one h0 (F32.le_trans h1 (one_le_ofNat hh)) (ofNat_pos hh) (ofNat_finite (hh'.trans (by norm_num)))

theorem pos_mul_ne_nan {a b : F32} (ha : 0 < a) (hb : 0 < b) : a * b ≠ nan := by
  rcases nonneg_cases (F32.le_of_lt ha) with rfl | ⟨x, hx, rfl, hx0⟩ <;>
  rcases nonneg_cases (F32.le_of_lt hb) with rfl | ⟨y, hy, rfl, hy0⟩
  · decide
  · rw [zero_def, fin_lt_fin] at hb
    rw [inf_mul_fin, if_neg hb.ne']; simp
  · rw [zero_def, fin_lt_fin] at ha
    rw [fin_mul_inf, if_neg ha.ne']; simp
  · rw [mul_fin]; exact rnd_ne_nan _

theorem harmonics_acc {M : Libm} (hM : Sane M) {powi : F32 → ℕ → F32} (hP : PowSane M powi) {g : Cfg}
    (hd : g.decay ≠ nan) (ht : g.tuning.isFinite = true) {fmin fmax f0 w0 : F32} (hf : 20 ≤ fmin) (hf' : fmax ≤ rnd (pow2 63))
    (h0 : 0 < f0) (hw0 : 0 ≤ w0) (hw1 : w0 ≤ rnd (pow2 77)) :
    ∀ (n h : ℕ) (c : List F32), 1 ≤ h → h + n ≤ 2 ^ 64 + 1 → Acc c →
      ∃ c', harmonics M powi g fmin fmax f0 w0 n h c = .ok c' ∧ Acc c' := by
  intro n
  induction n with
  | zero => intro h c _ _ hc; exact ⟨c, rfl, hc⟩
  | succ n ih =>
    intro h c hh hl hc
    unfold harmonics
    by_cases h1 : fmax < f0 * F32.ofNat h
    · rw [if_pos h1]; exact ⟨c, rfl, hc⟩
    rw [if_neg h1]
    by_cases h2 : f0 * F32.ofNat h < fmin
    · rw [if_pos h2]; exact ih _ _ (by omega) (by omega) hc
    rw [if_neg h2]
    dsimp only
    have hn : f0 * F32.ofNat h ≠ nan := pos_mul_ne_nan h0 (ofNat_pos hh)
    have a1 : fmin ≤ f0 * F32.ofNat h := F32.le_of_not_lt (ne_nan_right hf) hn h2
    have a2 : f0 * F32.ofNat h ≤ fmax := F32.le_of_not_lt hn (ne_nan_left hf') h1
    obtain ⟨d0, d1⟩ := clamp01 hd
    obtain ⟨p0, p1⟩ := hP.powi_range _ (h - 1) d0 d1
    obtain ⟨s0, s1⟩ := share p0 p1 hh (by omega)
    obtain ⟨k0, k1⟩ := weighted hw0 hw1 s0 s1
    obtain ⟨c1, e1, a⟩ := softStep_acc hM (sigma := g.sigma)
      (semitone_finite' hM (F32.le_trans hf a1) (F32.le_trans a2 hf') ht) k0 k1 hc
    rw [e1]
    exact ih _ _ (by omega) (by omega) a

/-- the magnitudes the extractor can deal with: up to `2^76`; NaN and negative values count as zero -/
def Moderate (m : F32) : Prop := m = nan ∨ m ≤ rnd (pow2 76)

theorem max_zero_moderate {m : F32} (h : Moderate m) : 0 ≤ F32.max m 0 ∧ F32.max m 0 ≤ rnd (pow2 76) := by
  refine ⟨le_max_right (by decide +kernel), ?_⟩
  rcases h with rfl | h
  · decide +kernel
  · rcases max_eq_left_or_right m 0 with e | e <;> rw [e]
    · exact h
    · decide +kernel

/-- settings for which the profile is well defined -/
structure Settings (g : Cfg) : Prop where
  tuning : g.tuning.isFinite = true
  decay : g.decay ≠ nan
  power : g.magPower ≠ nan
  harmonics : g.harmonics ≤ 2 ^ 64
  sr : g.sr ≤ 2 ^ 64

theorem addPeak_acc {M : Libm} (hM : Sane M) {powi : F32 → ℕ → F32} (hP : PowSane M powi) {g : Cfg} (hg : Settings g)
    {fmin fmax : F32} (hf : 20 ≤ fmin) (hf' : fmax ≤ rnd (pow2 63)) {frame : List F32} (hm : ∀ m ∈ frame, Moderate m)
    {c : List F32} (hc : Acc c) (p : ℕ × F32) (hp : binFreq g.sr g.fft p.1 ≠ nan) :
    ∃ c', addPeak M powi g fmin fmax frame c p = .ok c' ∧ Acc c' := by
  unfold addPeak
  dsimp only
  by_cases h1 : binFreq g.sr g.fft p.1 ≤ 0
  · rw [if_pos h1]; exact ⟨c, rfl, hc⟩
  rw [if_neg h1]
  have hmp : Moderate (frame.getD p.1 0) := by
    by_cases hi : p.1 < frame.length
    · exact hm _ (getD_mem' hi)
    · rw [List.getD_eq_getElem?_getD, List.getElem?_eq_none (by omega), Option.getD_none]
      exact Or.inr (by decide +kernel)
  obtain ⟨m0, m1⟩ := max_zero_moderate hmp
  obtain ⟨q0, q1⟩ := clamp_mem hg.power (show (0.05 : F32) ≤ 1 by decide +kernel)
  obtain ⟨w0, w1⟩ := hP.powf_range _ _ m0 m1 q0 q1
  by_cases h2 : M.powf (F32.max (frame.getD p.1 0) 0) (F32.clamp g.magPower 0.05 1) ≤ 0
  · rw [if_pos h2]; exact ⟨c, rfl, hc⟩
  rw [if_neg h2]
  have hh := hg.harmonics
  refine harmonics_acc hM hP hg.decay hg.tuning hf hf' (F32.lt_of_not_le (by decide +kernel) hp h1) w0 w1 _ 1 c (by omega) ?_ hc
  have : Nat.max g.harmonics 1 ≤ 2 ^ 64 := Nat.max_le.2 ⟨hh, by norm_num⟩
  omega

theorem addPeaks_acc {M : Libm} (hM : Sane M) {powi : F32 → ℕ → F32} (hP : PowSane M powi) {g : Cfg} (hg : Settings g)
    {fmin fmax : F32} (hf : 20 ≤ fmin) (hf' : fmax ≤ rnd (pow2 63)) {frame : List F32} (hm : ∀ m ∈ frame, Moderate m) :
    ∀ (ps : List (ℕ × F32)) (c : List F32), Acc c → (∀ p ∈ ps, binFreq g.sr g.fft p.1 ≠ nan) →
      ∃ c', ps.foldlM (addPeak M powi g fmin fmax frame) c = .ok c' ∧ Acc c' := by
  intro ps
  induction ps with
  | nil => intro c hc _; exact ⟨c, rfl, hc⟩
  | cons p ps ih =>
    intro c hc hn
    obtain ⟨c1, e1, k1⟩ := addPeak_acc hM hP hg hf hf' hm hc p (hn p (by simp))
    rw [List.foldlM_cons, e1]
    exact ih _ k1 (fun q hq => hn q (by simp [hq]))

/-- a bin above its left and not below its right neighbour -/
def PeakAt (v : List F32) (j : ℕ) : Prop := ¬ v.getD j 0 ≤ v.getD (j - 1) 0 ∧ ¬ v.getD j 0 < v.getD (j + 1) 0

/-- a bin inside the band -/
def InBand (g : Cfg) (fmin fmax : F32) (j : ℕ) : Prop := ¬ binFreq g.sr g.fft j < fmin ∧ ¬ fmax < binFreq g.sr g.fft j

theorem mem_peaksFrom {g : Cfg} {fmin fmax : F32} {v : List F32} : ∀ (n i : ℕ) {p : ℕ × F32},
    p ∈ peaksFrom g.sr g.fft fmin fmax v n i →
      (i ≤ p.1 ∧ p.1 < i + n) ∧ InBand g fmin fmax p.1 ∧ PeakAt v p.1 ∧ p.2 = v.getD p.1 0 := by
  intro n
  induction n with
  | zero => intro i p h; simp [peaksFrom] at h
  | succ n ih =>
    intro i p h
    unfold peaksFrom at h
    have next : p ∈ peaksFrom g.sr g.fft fmin fmax v n (i + 1) →
        (i ≤ p.1 ∧ p.1 < i + (n + 1)) ∧ InBand g fmin fmax p.1 ∧ PeakAt v p.1 ∧ p.2 = v.getD p.1 0 := by
      intro hh
      obtain ⟨h1, h2⟩ := ih (i + 1) hh
      exact ⟨⟨by omega, by omega⟩, h2⟩
    split_ifs at h with h1 h2 h3
    · exact next h
    · simp at h
    · exact next h
    · rcases List.mem_cons.1 h with rfl | h
      · exact ⟨⟨le_refl _, by omega⟩, ⟨h1, h2⟩, not_or.1 h3, rfl⟩
      · exact next h

/-- what is known of the selection: it splits the list into `k` entries that are kept and a rest, and no entry of the
rest is above a kept one (when no score is NaN) -/
def TopK (sel : ℕ → List (ℕ × F32) → List (ℕ × F32)) : Prop :=
  ∀ k l, k ≤ l.length → ∃ rest, (sel k l ++ rest).Perm l ∧ (sel k l).length = k ∧
    ((∀ p ∈ l, p.2 ≠ nan) → ∀ p ∈ sel k l, ∀ q ∈ rest, q.2 ≤ p.2)

theorem TopK.mem {sel : ℕ → List (ℕ × F32) → List (ℕ × F32)} (h : TopK sel) {k : ℕ} {l : List (ℕ × F32)} (hk : k ≤ l.length)
    {p : ℕ × F32} (hp : p ∈ sel k l) : p ∈ l := by
  obtain ⟨rest, e, _⟩ := h k l hk
  exact e.subset (List.mem_append_left _ hp)

theorem nyq_le {sr : ℕ} (h : sr ≤ 2 ^ 64) : F32.ofNat sr / 2 ≤ rnd (pow2 63) := by
  have e64 : F32.ofNat (2 ^ 64) = rnd (pow2 64) := by
    unfold F32.ofNat
    congr 1
  have h1 : F32.ofNat sr ≤ rnd (pow2 64) := by rw [← e64]; exact ofNat_mono h
  obtain ⟨g, e⟩ : ∃ h, rnd (pow2 64) = fin (pow2 64) h := ⟨by decide +kernel, by decide +kernel⟩
  obtain ⟨g', e'⟩ : ∃ h, rnd (pow2 63) = fin (pow2 63) h := ⟨by decide +kernel, by decide +kernel⟩
  obtain ⟨h2, e2⟩ : ∃ h, (2 : F32) = fin 2 h := ⟨by decide +kernel, by decide +kernel⟩
  have h0 := ofNat_nonneg sr
  rw [e] at h1
  rw [zero_def] at h0
  obtain ⟨v, hv, ev, v0, v1⟩ := between_cases h0 h1
  rw [ev, e2, e', div_fin (by norm_num)]
  refine rnd_le_fin ?_
  have : pow2 64 = 2 * pow2 63 := by decide +kernel
  linarith

theorem unitOrKeep_unit {c : List F32} (h : Acc c) :
    |exactSq (unitOrKeep c) - 1| ≤ 18 / 2 ^ 22 ∨ F32.sqrt (F32.sum ((unitOrKeep c).map (fun x => x * x))) ≤ 1e-10 := by
  have hmag := acc_mags h
  have hnn := norm2_nonneg hmag
  by_cases hn : EPS < norm2 c
  · have eu : unitOrKeep c = c.map (fun x => x / norm2 c) := if_pos hn
    rw [eu]
    rcases nonneg_cases hnn with hi | ⟨v, hv, ev, _⟩
    · right
      rw [hi, div_inf_zero hmag, h.1]
      decide +kernel
    · left
      have hfin : (norm2 c).isFinite = true := by rw [ev]; rfl
      have := unit_norm hmag (by rw [h.1]; norm_num) hn hfin
      rw [h.1] at this
      have e18 : (((12 : ℕ) : ℚ) + 6) / 2 ^ 22 = 18 / 2 ^ 22 := by norm_num
      rw [e18] at this
      exact this
  · right
    have eu : unitOrKeep c = c := if_neg hn
    rw [eu]
    exact F32.le_of_not_lt (ne_nan_right hnn) (by decide +kernel) hn

/-- **C78, range (partial).** For magnitudes up to `2^76` (NaN and negative magnitudes included), a finite tuning and
numbers as settings, every entry of a profile is a number in `[0, 1]`, and the profile has unit length up to
`18 / 2^22` unless its computed norm is at most `1e-10`.  Missing: louder frames and NaN settings, where the claim is
false (`C78_violated`). -/
theorem C78_range_partial (M : Libm) (hM : Sane M) (powi : F32 → ℕ → F32) (hP : PowSane M powi)
    (sel : ℕ → List (ℕ × F32) → List (ℕ × F32)) (hsel : TopK sel) (g : Cfg) (hg : Settings g) (hfft : g.fft ≤ 2 ^ 64)
    (fminHz fmaxHz : F32) (frame : List F32) (hl : frame.length ≤ 2 ^ 64)
    (hm : ∀ m ∈ frame, m = nan ∨ m ≤ rnd (pow2 76)) :
    ∃ c, frameToHpcp M powi sel g fminHz fmaxHz frame = .ok c ∧ c.length = 12 ∧ (∀ y ∈ c, 0 ≤ y ∧ y ≤ 1) ∧
      (|exactSq c - 1| ≤ 18 / 2 ^ 22 ∨ F32.sqrt (F32.sum (c.map (fun x => x * x))) ≤ 1e-10) := by
  have z : (∀ y ∈ zero12, 0 ≤ y ∧ y ≤ 1) ∧
      (|exactSq zero12 - 1| ≤ 18 / 2 ^ 22 ∨ F32.sqrt (F32.sum (zero12.map (fun x => x * x))) ≤ 1e-10) := by
    refine ⟨fun y hy => ?_, Or.inr (by decide +kernel)⟩
    have := List.eq_of_mem_replicate hy
    subst this
    decide +kernel
  unfold frameToHpcp
  by_cases h1 : frame = [] ∨ g.sr = 0 ∨ g.fft = 0
  · rw [if_pos h1]; exact ⟨_, rfl, rfl, z⟩
  rw [if_neg h1]
  dsimp only
  by_cases h2 : F32.min fmaxHz (F32.ofNat g.sr / 2) ≤ F32.max fminHz 20
  · rw [if_pos h2]; exact ⟨_, rfl, rfl, z⟩
  rw [if_neg h2]
  by_cases h3 : framePeaks g (F32.max fminHz 20) (F32.min fmaxHz (F32.ofNat g.sr / 2)) frame = []
  · rw [if_pos h3]; exact ⟨_, rfl, rfl, z⟩
  rw [if_neg h3]
  have hnq := nyq_le hg.sr
  have hfmax : F32.min fmaxHz (F32.ofNat g.sr / 2) ≤ rnd (pow2 63) := F32.le_trans (F32.min_le_right (ne_nan_left hnq)) hnq
  have hfmin : (20 : F32) ≤ F32.max fminHz 20 := le_max_right (by decide +kernel)
  have hfft0 : 0 < g.fft := Nat.pos_of_ne_zero (fun h => h1 (Or.inr (Or.inr h)))
  generalize F32.min fmaxHz (F32.ofNat g.sr / 2) = fmax at *
  generalize F32.max fminHz 20 = fmin at *
  obtain ⟨c, e, k⟩ := addPeaks_acc hM hP hg hfmin hfmax hm (sel (Nat.min (Nat.max g.peaks 1) (framePeaks g fmin fmax frame).length)
    (framePeaks g fmin fmax frame)) zero12 acc_zero (by
      intro p hp
      have hp' := hsel.mem (Nat.min_le_right _ _) hp
      unfold framePeaks at hp'
      obtain ⟨⟨_, hb⟩, _⟩ := mem_peaksFrom _ _ hp'
      exact freq_ne_nan hg.sr hfft0 hfft (by omega))
  rw [e]
  exact ⟨unitOrKeep c, rfl, by rw [length_unitOrKeep]; exact k.1, unitOrKeep_range (acc_mags k), unitOrKeep_unit k⟩

/-! ### Silence -/

theorem addPeak_silent {M : Libm} {powi : F32 → ℕ → F32} (hP : PowSane M powi) {g : Cfg} (hg : g.magPower ≠ nan)
    (fmin fmax : F32) {frame : List F32} (hm : ∀ m ∈ frame, ¬ 0 < m) (c : List F32) (p : ℕ × F32) :
    addPeak M powi g fmin fmax frame c p = .ok c := by
  unfold addPeak
  dsimp only
  have hz : F32.max (frame.getD p.1 0) 0 = 0 := by
    by_cases hi : p.1 < frame.length
    · exact max_silent (hm _ (getD_mem' hi))
    · rw [List.getD_eq_getElem?_getD, List.getElem?_eq_none (by omega), Option.getD_none]
      decide +kernel
  obtain ⟨q0, q1⟩ := clamp_mem hg (show (0.05 : F32) ≤ 1 by decide +kernel)
  rw [hz, hP.powf_zero _ q0 q1]
  split_ifs with h1 h2
  · rfl
  · rfl
  · exact absurd (by decide +kernel) h2

/-- **C78, silence.** A frame without positive magnitudes gives the zero profile, and so does a frame without a local
maximum inside the band (whitening or not), whatever the settings. -/
theorem C78_silent (M : Libm) (powi : F32 → ℕ → F32) (sel : ℕ → List (ℕ × F32) → List (ℕ × F32)) (g : Cfg)
    (fminHz fmaxHz : F32) (frame : List F32) :
    (PowSane M powi → g.magPower ≠ nan → (∀ m ∈ frame, ¬ 0 < m) →
      frameToHpcp M powi sel g fminHz fmaxHz frame = .ok (List.replicate 12 0)) ∧
    (g.white = false → (∀ j, 1 ≤ j → j + 1 < frame.length →
        ¬ (frame.getD (j - 1) 0 < frame.getD j 0 ∧ frame.getD (j + 1) 0 ≤ frame.getD j 0)) → (∀ m ∈ frame, m ≠ nan) →
      frameToHpcp M powi sel g fminHz fmaxHz frame = .ok (List.replicate 12 0)) := by
  have hu : unitOrKeep zero12 = zero12 := by decide +kernel
  constructor
  · intro hP hg hm
    unfold frameToHpcp
    by_cases h1 : frame = [] ∨ g.sr = 0 ∨ g.fft = 0
    · rw [if_pos h1]; rfl
    rw [if_neg h1]
    dsimp only
    by_cases h2 : F32.min fmaxHz (F32.ofNat g.sr / 2) ≤ F32.max fminHz 20
    · rw [if_pos h2]; rfl
    rw [if_neg h2]
    by_cases h3 : framePeaks g (F32.max fminHz 20) (F32.min fmaxHz (F32.ofNat g.sr / 2)) frame = []
    · rw [if_pos h3]; rfl
    rw [if_neg h3]
    have hfold : ∀ ps : List (ℕ × F32), ps.foldlM (addPeak M powi g (F32.max fminHz 20)
        (F32.min fmaxHz (F32.ofNat g.sr / 2)) frame) zero12 = .ok zero12 := by
      intro ps
      induction ps with
      | nil => rfl
      | cons p ps ih => rw [List.foldlM_cons, addPeak_silent hP hg _ _ hm]; exact ih
    rw [hfold, R.ok_bind, hu]; rfl
  · intro hw hj hn
    have h3 : ∀ fmin fmax, framePeaks g fmin fmax frame = [] := by
      intro fmin fmax
      rw [List.eq_nil_iff_forall_not_mem]
      intro p hp
      unfold framePeaks scoreCurve at hp
      rw [hw, Bool.false_and, if_neg (by simp)] at hp
      obtain ⟨⟨a, b⟩, _, ⟨k1, k2⟩, _⟩ := mem_peaksFrom _ _ hp
      have nn : ∀ j, frame.getD j 0 ≠ nan := by
        intro j
        by_cases hi : j < frame.length
        · exact hn _ (getD_mem' hi)
        · rw [List.getD_eq_getElem?_getD, List.getElem?_eq_none (by omega), Option.getD_none]
          decide +kernel
      exact hj p.1 a (by omega) ⟨F32.lt_of_not_le (nn _) (nn _) k1, F32.le_of_not_lt (nn _) (nn _) k2⟩
    unfold frameToHpcp
    by_cases h1 : frame = [] ∨ g.sr = 0 ∨ g.fft = 0
    · rw [if_pos h1]; rfl
    rw [if_neg h1]
    dsimp only
    rw [h3, if_pos rfl]
    split_ifs <;> rfl

/-! ### What a profile is made of -/

/-- specification: the three pitch classes that one partial feeds, and how much each of them gets -/
def spread (M : Libm) (sigma semi contrib : F32) : List (ℕ × F32) :=
  ([-1, 0, 1] : List ℤ).map (fun off =>
    (((primaryClass (F32.remEuclid semi 12) + off) % 12).toNat,
      contrib * softWeight M sigma (F32.remEuclid semi 12) ((primaryClass (F32.remEuclid semi 12) + off) % 12)))

/-- specification: the partials of a peak at `f0` with weight `w0`: the in-band multiples `h f0`, weighted by
`decay^(h-1) / h` -/
def partials (M : Libm) (powi : F32 → ℕ → F32) (g : Cfg) (fmin fmax f0 w0 : F32) (hs : List ℕ) : List (ℕ × F32) :=
  (hs.filter (fun h => decide (fmin ≤ f0 * F32.ofNat h ∧ f0 * F32.ofNat h ≤ fmax))).flatMap (fun h =>
    spread M g.sigma (semitone M (f0 * F32.ofNat h) g.tuning) (w0 * (powi (F32.clamp g.decay 0 1) (h - 1) / F32.ofNat h)))

/-- specification: the contributions of one local maximum, at bin `b` -/
def contributions (M : Libm) (powi : F32 → ℕ → F32) (g : Cfg) (fmin fmax : F32) (frame : List F32) (b : ℕ) : List (ℕ × F32) :=
  let w0 := M.powf (F32.max (frame.getD b 0) 0) (F32.clamp g.magPower 0.05 1)
  if 0 < w0 then partials M powi g fmin fmax (binFreq g.sr g.fft b) w0 (List.range' 1 (Nat.max g.harmonics 1)) else []

/-- specification: the sums per pitch class -/
def classSums (ts : List (ℕ × F32)) : List F32 :=
  (List.range 12).map (fun k => F32.sum ((ts.filter (fun t => t.1 = k)).map (·.2)))

/-- adding contributions one after the other -/
def addAll (ts : List (ℕ × F32)) (c : List F32) : R (List F32) := ts.foldlM (fun c t => addAt c t.1 t.2) c

theorem addAll_append (a b : List (ℕ × F32)) (c : List F32) : addAll (a ++ b) c = addAll a c >>= addAll b := by
  unfold addAll
  rw [List.foldlM_append]

theorem softStep_eq (M : Libm) (sigma semi contrib : F32) (c : List F32) :
    softStep M sigma semi contrib c = addAll (spread M sigma semi contrib) c := rfl

theorem harmonics_eq {M : Libm} {powi : F32 → ℕ → F32} {g : Cfg} {fmin fmax f0 w0 : F32} (hf : fmin ≠ nan) (hf' : fmax ≠ nan)
    (h0 : 0 < f0) : ∀ (n h : ℕ) (c : List F32), 1 ≤ h →
      harmonics M powi g fmin fmax f0 w0 n h c = addAll (partials M powi g fmin fmax f0 w0 (List.range' h n)) c := by
  intro n
  induction n with
  | zero => intro h c _; rfl
  | succ n ih =>
    intro h c hh
    unfold harmonics
    have hn : ∀ k, 1 ≤ k → f0 * F32.ofNat k ≠ nan := fun k hk => pos_mul_ne_nan h0 (ofNat_pos hk)
    by_cases h1 : fmax < f0 * F32.ofNat h
    · rw [if_pos h1]
      have : partials M powi g fmin fmax f0 w0 (List.range' h (n + 1)) = [] := by
        unfold partials
        rw [List.filter_eq_nil_iff.2, List.flatMap_nil]
        intro k hk
        have hk' := (List.mem_range'_1.1 hk).1
        have : f0 * F32.ofNat h ≤ f0 * F32.ofNat k :=
          F32.mul_le_mul_of_nonneg_left (ofNat_mono hk') (F32.le_of_lt h0) (hn h hh) (hn k (by omega))
        simp only [decide_eq_true_eq]
        exact fun hq => F32.lt_irrefl _ (F32.lt_of_lt_of_le (F32.lt_of_lt_of_le h1 this) hq.2)
      rw [this]; rfl
    rw [if_neg h1]
    have a2 : f0 * F32.ofNat h ≤ fmax := F32.le_of_not_lt (hn h hh) hf' h1
    by_cases h2 : f0 * F32.ofNat h < fmin
    · rw [if_pos h2, ih _ _ (by omega)]
      unfold partials
      rw [List.range'_succ, List.filter_cons_of_neg]
      simp only [decide_eq_true_eq]
      exact fun hq => F32.lt_irrefl _ (F32.lt_of_lt_of_le h2 hq.1)
    rw [if_neg h2]
    have a1 : fmin ≤ f0 * F32.ofNat h := F32.le_of_not_lt hf (hn h hh) h2
    unfold partials
    rw [List.range'_succ, List.filter_cons_of_pos (by simp [a1, a2]), List.flatMap_cons, addAll_append]
    dsimp only
    rw [softStep_eq]
    congr 1
    funext c'
    exact ih _ _ (by omega)

theorem addPeak_eq {M : Libm} {powi : F32 → ℕ → F32} {g : Cfg} {fmin fmax : F32} (hf : fmin ≠ nan) (hf' : fmax ≠ nan)
    (frame : List F32) (c : List F32) (p : ℕ × F32) (hp : 0 < binFreq g.sr g.fft p.1)
    (hw : M.powf (F32.max (frame.getD p.1 0) 0) (F32.clamp g.magPower 0.05 1) ≠ nan) :
    addPeak M powi g fmin fmax frame c p = addAll (contributions M powi g fmin fmax frame p.1) c := by
  unfold addPeak contributions
  dsimp only
  rw [if_neg (fun h => F32.lt_irrefl _ (F32.lt_of_lt_of_le hp h))]
  by_cases h1 : M.powf (F32.max (frame.getD p.1 0) 0) (F32.clamp g.magPower 0.05 1) ≤ 0
  · rw [if_pos h1, if_neg (fun h => F32.lt_irrefl _ (F32.lt_of_lt_of_le h h1))]; rfl
  · rw [if_neg h1, if_pos (F32.lt_of_not_le (by decide +kernel) hw h1), harmonics_eq hf hf' hp _ _ _ (le_refl 1)]

theorem addPeaks_eq {M : Libm} {powi : F32 → ℕ → F32} {g : Cfg} {fmin fmax : F32} (hf : fmin ≠ nan) (hf' : fmax ≠ nan)
    (frame : List F32) : ∀ (ps : List (ℕ × F32)) (c : List F32), (∀ p ∈ ps, 0 < binFreq g.sr g.fft p.1 ∧
      M.powf (F32.max (frame.getD p.1 0) 0) (F32.clamp g.magPower 0.05 1) ≠ nan) →
    ps.foldlM (addPeak M powi g fmin fmax frame) c =
      addAll (ps.flatMap (fun p => contributions M powi g fmin fmax frame p.1)) c := by
  intro ps
  induction ps with
  | nil => intro c _; rfl
  | cons p ps ih =>
    intro c h
    rw [List.foldlM_cons, List.flatMap_cons, addAll_append, addPeak_eq hf hf' frame c p (h p (by simp)).1 (h p (by simp)).2]
    congr 1
    funext c'
    exact ih c' (fun q hq => h q (by simp [hq]))

theorem addAll_get : ∀ (ts : List (ℕ × F32)) (c : List F32), c.length = 12 → (∀ t ∈ ts, t.1 < 12) →
    ∃ c', addAll ts c = .ok c' ∧ c'.length = 12 ∧
      ∀ k < 12, c'.getD k 0 = ((ts.filter (fun t => t.1 = k)).map (·.2)).foldl (· + ·) (c.getD k 0) := by
  intro ts
  induction ts with
  | nil => intro c hc _; exact ⟨c, rfl, hc, fun _ _ => rfl⟩
  | cons t ts ih =>
    intro c hc ht
    obtain ⟨c1, e1, l1, v1⟩ := addAt_get hc (ht t (by simp)) t.2
    obtain ⟨c2, e2, l2, v2⟩ := ih c1 l1 (fun q hq => ht q (by simp [hq]))
    refine ⟨c2, ?_, l2, fun k hk => ?_⟩
    · unfold addAll at *
      rw [List.foldlM_cons, e1]; exact e2
    · rw [v2 k hk, v1 k hk]
      by_cases h : t.1 = k
      · rw [if_pos h, List.filter_cons_of_pos (by simp [h])]; rfl
      · rw [if_neg h, List.filter_cons_of_neg (by simp [h])]

theorem addAll_zero {ts : List (ℕ × F32)} (ht : ∀ t ∈ ts, t.1 < 12) : addAll ts zero12 = .ok (classSums ts) := by
  obtain ⟨c, e, l, v⟩ := addAll_get ts zero12 rfl ht
  rw [e]
  congr 1
  refine List.ext_getElem (by rw [l]; simp [classSums]) (fun i h1 h2 => ?_)
  have hi : i < 12 := by omega
  have := v i hi
  rw [zero12_get, List.getD_eq_getElem?_getD, List.getElem?_eq_getElem h1, Option.getD_some] at this
  rw [this]
  simp only [classSums, List.getElem_map, List.getElem_range]
  rfl

theorem spread_lt {M : Libm} {sigma semi contrib : F32} : ∀ t ∈ spread M sigma semi contrib, t.1 < 12 := by
  intro t ht
  unfold spread at ht
  obtain ⟨off, _, rfl⟩ := List.mem_map.1 ht
  dsimp only
  omega

theorem contributions_lt {M : Libm} {powi : F32 → ℕ → F32} {g : Cfg} {fmin fmax : F32} {frame : List F32} {b : ℕ} :
    ∀ t ∈ contributions M powi g fmin fmax frame b, t.1 < 12 := by
  intro t ht
  unfold contributions partials at ht
  dsimp only at ht
  split_ifs at ht
  · obtain ⟨h, _, ht⟩ := List.mem_flatMap.1 ht
    exact spread_lt t ht
  · simp at ht

end Verif.Props
