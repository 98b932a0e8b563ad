/-
C80: the tuning estimate.
-/
import Verif.Props.Hpcp
import Verif.Props.ChannelMixer

namespace Verif.Props
open Verif F32 Chroma Hpcp

/-! ### Range -/

/-- what is asked of the trigonometric functions and of the square root taken with `powf` -/
structure TrigSane (M : Libm) : Prop where
  sin_range : ∀ a : F32, a.isFinite = true → ∃ v hv, M.sin a = fin v hv ∧ |v| ≤ 1
  cos_range : ∀ a : F32, a.isFinite = true → ∃ v hv, M.cos a = fin v hv ∧ |v| ≤ 1
  atan2_range : ∀ y x : F32, y ≠ nan → x ≠ nan → ∃ v hv, M.atan2 y x = fin v hv ∧ |v| ≤ PI.val
  root_range : ∀ x : F32, 0 ≤ x → x.isFinite = true → 0 ≤ M.powf x 0.5 ∧ M.powf x 0.5 ≤ rnd (pow2 77)
  root_zero : M.powf 0 0.5 = 0

/-- the accumulators stay below a bound that absorbs every further weight -/
def Small (x : F32) : Prop := ∃ v hv, x = fin v hv ∧ |v| ≤ pow2 101

theorem small_add {s x : F32} (h : Small s) (hx : ∃ v hv, x = fin v hv ∧ |v| ≤ pow2 77) : Small (s + x) := by
  obtain ⟨a, ha, rfl, hab⟩ := h
  obtain ⟨b, hb, rfl, hbb⟩ := hx
  rw [add_fin]
  have h1 : |a + b| ≤ pow2 101 + pow2 77 := (abs_add_le a b).trans (by linarith)
  have e : rndQ (pow2 101 + pow2 77) = pow2 101 := by decide +kernel
  have h2 : |rndQ (a + b)| ≤ pow2 101 := by rw [abs_rndQ, ← e]; exact rndQ_mono h1
  have h3 : pow2 101 < pow2 128 := by decide +kernel
  exact ⟨rndQ (a + b), _, rnd_of_lt (lt_of_le_of_lt h2 h3), h2⟩

theorem small_ne_nan {x : F32} (h : Small x) : x ≠ nan := by
  obtain ⟨_, _, rfl, _⟩ := h
  simp

theorem weight_mul {w t : F32} (h0 : 0 ≤ w) (h1 : w ≤ rnd (pow2 77)) (ht : ∃ v hv, t = fin v hv ∧ |v| ≤ 1) :
    ∃ v hv, w * t = fin v hv ∧ |v| ≤ pow2 77 := by
  obtain ⟨g, e⟩ := grid77
  rw [e] at h1
  rw [zero_def] at h0
  obtain ⟨a, ha, rfl, a0, a1⟩ := between_cases h0 h1
  obtain ⟨b, hb, rfl, hb1⟩ := ht
  rw [mul_fin]
  obtain ⟨hq, eq, hb⟩ := rnd_finite_of_abs_le (q := a * b) g (by
    rw [_root_.abs_mul, abs_of_nonneg a0]
    nlinarith [abs_nonneg b])
  exact ⟨_, hq, eq, hb⟩

/-- the semitone number of an audible frequency -/
theorem semi_small {M : Libm} (hM : Sane M) {f : F32} (hf : 20 ≤ f) (hf' : f ≤ rnd (pow2 63)) :
    ∃ v hv, 12 * M.log2 (f / A4) + SEMI = fin v hv ∧ |v| ≤ 4096 := by
  obtain ⟨h1, e1⟩ : ∃ h, (20 : F32) = fin 20 h := ⟨by decide +kernel, by decide +kernel⟩
  obtain ⟨h2, e2⟩ : ∃ h, rnd (pow2 63) = fin (pow2 63) h := ⟨by decide +kernel, by decide +kernel⟩
  obtain ⟨h3, e3⟩ : ∃ h, A4 = fin 440 h := ⟨by decide +kernel, by decide +kernel⟩
  obtain ⟨h5, e5⟩ : ∃ h, SEMI = fin 57 h := ⟨by decide +kernel, by decide +kernel⟩
  obtain ⟨h12, e12⟩ := twelve
  rw [e1] at hf; rw [e2] at hf'
  obtain ⟨v, hv, rfl, hv0, hv1⟩ := between_cases hf hf'
  have g8 : OnGrid (1 / 32 : ℚ) ∧ |(1 / 32 : ℚ)| < pow2 128 := by decide +kernel
  obtain ⟨hq, e4, l, u⟩ := rnd_between (x := v / 440) g8 h2 (by rw [le_div_iff₀ (by norm_num)]; linarith)
    (by rw [div_le_iff₀ (by norm_num)]; have := pow2_pos 63; nlinarith)
  rw [e3, div_fin (by norm_num), e4]
  obtain ⟨y, hy, ey, hyb⟩ := hM.log2_range (fin (rndQ (v / 440)) hq) (by rw [zero_def, fin_lt_fin]; linarith) rfl
  rw [ey, e12, mul_fin, e5]
  have g12 : OnGrid (2400 : ℚ) ∧ |(2400 : ℚ)| < pow2 128 := by decide +kernel
  have hyb' := abs_le.1 hyb
  obtain ⟨hz, ez, hzb⟩ := rnd_finite_of_abs_le (q := 12 * y) g12 (by rw [abs_le]; constructor <;> linarith)
  rw [ez, add_fin]
  generalize rndQ (12 * y) = z at *
  have g13 : OnGrid (4096 : ℚ) ∧ |(4096 : ℚ)| < pow2 128 := by decide +kernel
  have hzb' := abs_le.1 hzb
  obtain ⟨hw, ew, hwb⟩ := rnd_finite_of_abs_le (q := z + 57) g13 (by rw [abs_le]; constructor <;> linarith)
  exact ⟨_, hw, ew, hwb⟩

/-- rounding a number of moderate size is exact, and the rest is at most one half -/
theorem residual {v : ℚ} {hv} (h : |v| ≤ 4096) : ∃ r hr, fin v hv - F32.round (fin v hv) = fin r hr ∧ |r| ≤ 1 / 2 := by
  have hr := roundAway_near v
  have hb : |roundAway v| ≤ 4097 := by
    have h1 := abs_le.1 hr
    have h2 := abs_le.1 h
    have a1 : (roundAway v : ℚ) ≤ ((4097 : ℤ) : ℚ) := by push_cast; linarith
    have a2 : ((-4097 : ℤ) : ℚ) ≤ (roundAway v : ℚ) := by push_cast; linarith
    rw [abs_le]
    exact ⟨by exact_mod_cast a2, by exact_mod_cast a1⟩
  obtain ⟨hg, e⟩ : ∃ h, F32.round (fin v hv) = fin (roundAway v : ℚ) h := by
    exact ofInt_exact (n := roundAway v) (by have := abs_le.1 hb; rw [abs_le]; constructor <;> omega)
  rw [e, sub_fin]
  have g2 : OnGrid (1 / 2 : ℚ) ∧ |(1 / 2 : ℚ)| < pow2 128 := by decide +kernel
  obtain ⟨hq, eq, hb⟩ := rnd_finite_of_abs_le g2 hr
  exact ⟨_, hq, eq, hb⟩

/-- the angle of a bin -/
theorem angle_finite {M : Libm} (hM : Sane M) {f : F32} (hf : 20 ≤ f) (hf' : f ≤ rnd (pow2 63)) :
    (2 * PI * (12 * M.log2 (f / A4) + SEMI - F32.round (12 * M.log2 (f / A4) + SEMI))).isFinite = true := by
  obtain ⟨v, hv, e, hb⟩ := semi_small hM hf hf'
  obtain ⟨r, hr, e', hb'⟩ := residual (hv := hv) hb
  rw [e, e']
  obtain ⟨g, ep⟩ : ∃ h, 2 * PI = fin (2 * PI).val h := ⟨by decide +kernel, by decide +kernel⟩
  rw [ep, mul_fin]
  have g8 : OnGrid (8 : ℚ) ∧ |(8 : ℚ)| < pow2 128 := by decide +kernel
  have hp : |(2 * PI).val| ≤ 8 := by decide +kernel
  obtain ⟨hq, eq, _⟩ := rnd_finite_of_abs_le (q := (2 * PI).val * r) g8 (by
    rw [_root_.abs_mul]
    nlinarith [abs_nonneg r, abs_nonneg (2 * PI).val])
  rw [eq]; rfl

/-- the three accumulators -/
def SumsOk (a : Sums) : Prop := Small a.s ∧ Small a.c ∧ Small a.w

theorem addBin_ok {M : Libm} (hM : Sane M) (hT : TrigSane M) {f m : F32} (hf : 20 ≤ f) (hf' : f ≤ rnd (pow2 63)) (hm : Tame m)
    {a : Sums} (h : SumsOk a) : SumsOk (addBin M f m a) := by
  unfold addBin
  dsimp only
  obtain ⟨m0, m1⟩ := max_zero_tame hm
  obtain ⟨w0, w1⟩ := hT.root_range _ m0 m1
  have ha := angle_finite hM hf hf'
  split_ifs
  · exact h
  · refine ⟨small_add h.1 (weight_mul w0 w1 (hT.sin_range _ ha)), small_add h.2.1 (weight_mul w0 w1 (hT.cos_range _ ha)),
      small_add h.2.2 ?_⟩
    obtain ⟨g, e⟩ := grid77
    rw [e] at w1
    generalize M.powf (F32.max m 0) 0.5 = w at w0 w1 ⊢
    rw [zero_def] at w0
    obtain ⟨x, hx, ex, x0, x1⟩ := between_cases w0 w1
    exact ⟨x, hx, ex, by rw [abs_of_nonneg x0]; exact x1⟩

theorem sumFrom_ok {M : Libm} (hM : Sane M) (hT : TrigSane M) {sr fft : ℕ} (hs : sr ≤ 2 ^ 64) (hf : 0 < fft) (hf' : fft ≤ 2 ^ 64)
    {fmin fmax : F32} (h1 : 20 ≤ fmin) (h2 : fmax ≤ rnd (pow2 63)) (thr : F32) : ∀ (l : List F32) (i : ℕ) (a : Sums),
    i + l.length ≤ 2 ^ 64 → (∀ m ∈ l, Tame m) → SumsOk a → SumsOk (sumFrom M sr fft fmin fmax thr i l a) := by
  intro l
  induction l with
  | nil => intro i a _ _ h; exact h
  | cons m l ih =>
    intro i a hl hm h
    simp only [List.length_cons] at hl
    have hrec := fun a' (h' : SumsOk a') => ih (i + 1) a' (by omega) (fun x hx => hm x (by simp [hx])) h'
    have hn : binFreq sr fft i ≠ nan := freq_ne_nan hs hf hf' (by omega)
    unfold sumFrom
    split_ifs with k1 k2 k3
    · exact hrec a h
    · exact hrec a h
    · exact h
    · exact hrec _ (addBin_ok hM hT (F32.le_trans h1 (F32.le_of_not_lt (ne_nan_right h1) hn k2))
        (F32.le_trans (F32.le_of_not_lt hn (ne_nan_left h2) k3) h2) (hm m (by simp)) h)

theorem circularMean_range {M : Libm} (hT : TrigSane M) {a : Sums} (h : SumsOk a) :
    -0.5 ≤ circularMean M a ∧ circularMean M a ≤ 0.5 := by
  unfold circularMean
  split_ifs
  · decide +kernel
  · decide +kernel
  · obtain ⟨v, hv, e, hb⟩ := hT.atan2_range a.s a.c (small_ne_nan h.1) (small_ne_nan h.2.1)
    obtain ⟨g, ep⟩ : ∃ h, 2 * PI = fin (2 * PI.val) h := ⟨by decide +kernel, by decide +kernel⟩
    have hp : 0 < PI.val := by decide +kernel
    rw [e, ep, div_fin (by positivity)]
    have g2 : OnGrid (1 / 2 : ℚ) ∧ |(1 / 2 : ℚ)| < pow2 128 := by decide +kernel
    obtain ⟨hq, eq, hb'⟩ := rnd_finite_of_abs_le (q := v / (2 * PI.val)) g2 (by
      rw [abs_div, abs_of_pos (show 0 < 2 * PI.val by positivity), div_le_iff₀ (by positivity)]
      linarith)
    rw [eq]
    obtain ⟨h3, e3⟩ : ∃ h, (-0.5 : F32) = fin (-(1 / 2)) h := ⟨by decide +kernel, by decide +kernel⟩
    obtain ⟨h4, e4⟩ : ∃ h, (0.5 : F32) = fin (1 / 2) h := ⟨by decide +kernel, by decide +kernel⟩
    rw [e3, e4, fin_le_fin, fin_le_fin]
    exact abs_le.1 hb'

theorem mem_everyNth {α} {step : ℕ} {l : List α} {x : α} (h : x ∈ everyNth step l) : x ∈ l := by
  unfold everyNth at h
  obtain ⟨p, hp, rfl⟩ := List.mem_map.1 h
  exact (List.mem_zipIdx' (List.mem_of_mem_filter hp)).2 ▸ List.getElem_mem _

/-- **C80, range (partial).** For a spectrogram with non-empty frames of one length and without infinite magnitudes (NaN
and negative ones allowed), and a band whose lower end, at least 20 Hz, is 1 Hz or more below half the sample rate, the
estimate is a number between -0.5 and 0.5 semitones.  Missing: bands that start above, where the function panics, and
infinite magnitudes (`C80_violated`, `C80_violated_infinite`). -/
theorem C80_range_partial (M : Libm) (hM : Sane M) (hT : TrigSane M) (spec : List (List F32)) (sr fft : ℕ) (hs : sr ≤ 2 ^ 64)
    (hf' : fft ≤ 2 ^ 64) (fminHz fmaxHz : F32) (step : ℕ) (thr : F32)
    (h1 : ∀ fr ∈ spec, fr ≠ []) (h2 : ∀ a ∈ spec, ∀ b ∈ spec, a.length = b.length)
    (hl : ∀ fr ∈ spec, fr.length ≤ 2 ^ 64) (hm : ∀ fr ∈ spec, ∀ m ∈ fr, m ≠ inf false)
    (hb : F32.max fminHz 20 + 1 ≤ F32.ofNat sr / 2) (hx : fmaxHz ≠ nan) :
    ∃ d, estimateTuning M spec sr fft fminHz fmaxHz step thr = .ok d ∧ -0.5 ≤ d ∧ d ≤ 0.5 := by
  have z : (-0.5 : F32) ≤ 0 ∧ (0 : F32) ≤ 0.5 := by decide +kernel
  unfold estimateTuning
  by_cases hne : spec = []
  · rw [if_pos hne]; exact ⟨0, rfl, z⟩
  rw [if_neg hne, checkSpec_ok hne h1 h2, R.ok_bind]
  by_cases h0 : sr = 0 ∨ fft = 0
  · rw [if_pos h0]; exact ⟨0, rfl, z⟩
  rw [if_neg h0]
  dsimp only
  have hc : clampP fmaxHz (F32.max fminHz 20 + 1) (F32.ofNat sr / 2) =
      .ok (F32.clamp fmaxHz (F32.max fminHz 20 + 1) (F32.ofNat sr / 2)) := if_pos hb
  rw [hc, R.ok_bind]
  have hfmin : (20 : F32) ≤ F32.max fminHz 20 := le_max_right (by decide +kernel)
  obtain ⟨c0, c1⟩ := clamp_mem hx hb
  have hfmax := F32.le_trans c1 (nyq_le hs)
  generalize F32.clamp fmaxHz (F32.max fminHz 20 + 1) (F32.ofNat sr / 2) = fmax at *
  generalize F32.max fminHz 20 = fmin at *
  have zero_small : Small 0 := ⟨0, by decide +kernel, by decide +kernel, by rw [abs_zero]; exact (pow2_pos _).le⟩
  have key : ∀ (l : List (List F32)) (a : Sums), (∀ fr ∈ l, fr ∈ spec) → SumsOk a →
      SumsOk (l.foldl (addFrame M sr fft fmin fmax (F32.clamp thr 0 1)) a) := by
    intro l
    induction l with
    | nil => intro a _ h; exact h
    | cons fr l ih =>
      intro a hs' ha
      rw [List.foldl_cons]
      refine ih _ (fun x hx => hs' x (by simp [hx])) ?_
      unfold addFrame
      dsimp only
      have hfr := hs' fr (by simp)
      split_ifs
      · exact ha
      · exact sumFrom_ok hM hT hs (by omega) hf' hfmin hfmax _ fr 0 a (by have := hl fr hfr; omega) (hm fr hfr) ha
  exact ⟨_, rfl, circularMean_range hT (key _ _ (fun fr hfr => mem_everyNth hfr) ⟨zero_small, zero_small, zero_small⟩)⟩

/-! ### Which frames count -/

theorem zipIdx_filter_congr {α} {step : ℕ} : ∀ {a b : List α} {n : ℕ}, a.length = b.length →
    (∀ i (h : i < a.length) (h' : i < b.length), (n + i) % step = 0 → a[i] = b[i]) →
    ((a.zipIdx n).filter (fun p => p.2 % step = 0)).map (·.1) = ((b.zipIdx n).filter (fun p => p.2 % step = 0)).map (·.1) := by
  intro a
  induction a with
  | nil => intro b n h _; cases b with
    | nil => rfl
    | cons => simp at h
  | cons x a ih =>
    intro b n h hx
    cases b with
    | nil => simp at h
    | cons y b =>
      have hrec := ih (b := b) (n := n + 1) (by simpa using h) (fun i h1 h2 h3 => by
        have := hx (i + 1) (by simp; omega) (by simp; omega) (by rw [← h3]; congr 1; omega)
        simpa using this)
      rw [List.zipIdx_cons, List.zipIdx_cons]
      by_cases hn : n % step = 0
      · have hxy : x = y := by have := hx 0 (by simp) (by simp) (by simpa using hn); simpa using this
        rw [List.filter_cons_of_pos (by simp [hn]), List.filter_cons_of_pos (by simp [hn]), List.map_cons, List.map_cons, hrec, hxy]
      · rw [List.filter_cons_of_neg (by simp [hn]), List.filter_cons_of_neg (by simp [hn]), hrec]

/-- **C80, frames.** Only every `max(frame_step, 1)`-th frame counts: two spectrograms with the same number of frames, all
frames non-empty and of one length, that agree on these frames get the same answer. -/
theorem C80_frames (M : Libm) (a b : List (List F32)) (sr fft : ℕ) (fminHz fmaxHz : F32) (step : ℕ) (thr : F32)
    (hlen : a.length = b.length) (ha : ∀ fr ∈ a, fr ≠ []) (ha' : ∀ x ∈ a, ∀ y ∈ a, x.length = y.length)
    (hb : ∀ fr ∈ b, fr ≠ []) (hb' : ∀ x ∈ b, ∀ y ∈ b, x.length = y.length)
    (h : ∀ i (h : i < a.length) (h' : i < b.length), i % Nat.max step 1 = 0 → a[i] = b[i]) :
    estimateTuning M a sr fft fminHz fmaxHz step thr = estimateTuning M b sr fft fminHz fmaxHz step thr := by
  unfold estimateTuning
  by_cases hne : a = []
  · have : b = [] := by apply List.eq_nil_of_length_eq_zero; rw [← hlen, hne]; rfl
    rw [if_pos hne, if_pos this]
  have hne' : b ≠ [] := by intro hh; apply hne; apply List.eq_nil_of_length_eq_zero; rw [hlen, hh]; rfl
  have e : everyNth (Nat.max step 1) a = everyNth (Nat.max step 1) b :=
    zipIdx_filter_congr hlen (fun i h1 h2 h3 => h i h1 h2 (by simpa using h3))
  rw [if_neg hne, if_neg hne', checkSpec_ok hne ha ha', checkSpec_ok hne' hb hb', e]

/-! ### Silence -/

theorem peakFrom_silent {sr fft : ℕ} {fmin fmax : F32} : ∀ (l : List F32) (i : ℕ) (p : F32), (∀ m ∈ l, ¬ 0 < m) → p = 0 →
    peakFrom sr fft fmin fmax i l p = 0 := by
  intro l
  induction l with
  | nil => intro i p _ h; exact h
  | cons m l ih =>
    intro i p hm hp
    have hrec := fun p' (h' : p' = 0) => ih (i + 1) p' (fun x hx => hm x (by simp [hx])) h'
    unfold peakFrom
    split_ifs
    · exact hrec p hp
    · exact hp
    · refine hrec _ ?_
      have hmm := hm m (by simp)
      rw [hp]
      rcases m with _ | s | ⟨v, hv⟩
      · decide +kernel
      · cases s
        · exact absurd (by decide +kernel) hmm
        · decide +kernel
      · rw [zero_def, fin_lt_fin] at hmm
        unfold F32.max
        rw [if_neg (by decide +kernel), if_neg (by simp [isNaN])]
        split_ifs with hlt
        · rw [zero_def, fin_lt_fin] at hlt; exact absurd hlt hmm
        · rfl

/-- **C80, silence.** An empty spectrogram, and one whose counted frames have no positive magnitude, give 0; so does a zero
sample rate or transform size.  (A band that leaves no room below half the sample rate panics even then.) -/
theorem C80_silence (M : Libm) (spec : List (List F32)) (sr fft : ℕ) (fminHz fmaxHz : F32) (step : ℕ) (thr : F32)
    (h1 : ∀ fr ∈ spec, fr ≠ []) (h2 : ∀ a ∈ spec, ∀ b ∈ spec, a.length = b.length)
    (h : spec = [] ∨ sr = 0 ∨ fft = 0 ∨ F32.max fminHz 20 + 1 ≤ F32.ofNat sr / 2 ∧
      ∀ i (h : i < spec.length), i % Nat.max step 1 = 0 → ∀ m ∈ spec[i], ¬ 0 < m) :
    estimateTuning M spec sr fft fminHz fmaxHz step thr = .ok 0 := by
  unfold estimateTuning
  by_cases hne : spec = []
  · rw [if_pos hne]
  rw [if_neg hne, checkSpec_ok hne h1 h2, R.ok_bind]
  by_cases h0 : sr = 0 ∨ fft = 0
  · rw [if_pos h0]; rfl
  rw [if_neg h0]
  rcases h with h | h | h | ⟨hb, hq⟩
  · exact absurd h hne
  · exact absurd (Or.inl h) h0
  · exact absurd (Or.inr h) h0
  dsimp only
  have hc : clampP fmaxHz (F32.max fminHz 20 + 1) (F32.ofNat sr / 2) =
      .ok (F32.clamp fmaxHz (F32.max fminHz 20 + 1) (F32.ofNat sr / 2)) := if_pos hb
  rw [hc, R.ok_bind]
  have hev : ∀ fr ∈ everyNth (Nat.max step 1) spec, ∀ m ∈ fr, ¬ 0 < m := by
    intro fr hfr
    unfold everyNth at hfr
    obtain ⟨p, hp, rfl⟩ := List.mem_map.1 hfr
    obtain ⟨hp1, hp2⟩ := List.mem_filter.1 hp
    obtain ⟨k1, k2⟩ := List.mem_zipIdx' hp1
    rw [k2]
    exact hq _ k1 (by simpa using hp2)
  have key : ∀ (l : List (List F32)) (a : Sums), (∀ fr ∈ l, ∀ m ∈ fr, ¬ 0 < m) →
      l.foldl (addFrame M sr fft (F32.max fminHz 20) (F32.clamp fmaxHz (F32.max fminHz 20 + 1) (F32.ofNat sr / 2))
        (F32.clamp thr 0 1)) a = a := by
    intro l
    induction l with
    | nil => intro a _; rfl
    | cons fr l ih =>
      intro a hl
      rw [List.foldl_cons]
      have : addFrame M sr fft (F32.max fminHz 20) (F32.clamp fmaxHz (F32.max fminHz 20 + 1) (F32.ofNat sr / 2))
          (F32.clamp thr 0 1) a fr = a := by
        unfold addFrame
        dsimp only
        rw [peakFrom_silent fr 0 0 (hl fr (by simp)) rfl, if_pos (by decide +kernel)]
      rw [this]
      exact ih a (fun x hx => hl x (by simp [hx]))
  rw [key _ _ hev]
  show Except.ok (circularMean M ⟨0, 0, 0⟩) = _
  unfold circularMean
  rw [if_pos (by decide +kernel)]

/-! ### Material in tune, and a single tone -/

theorem addBin_zero {M : Libm} (h0 : M.powf 0 0.5 = 0) {f m : F32} (hm : ¬ 0 < m) (a : Sums) : addBin M f m a = a := by
  unfold addBin
  dsimp only
  rw [max_silent hm, h0, if_pos (by decide +kernel)]

/-- accumulators of material without deviation: no sine part, and the cosine part is the weight -/
def Aligned (a : Sums) : Prop := a.s = 0 ∧ a.c = a.w ∧ 0 ≤ a.w ∧ a.w ≠ nan

theorem addBin_aligned {M : Libm} (hT : TrigSane M) (hs : M.sin 0 = 0) (hc : M.cos 0 = 1) {f m : F32} (hm : Tame m)
    (hf : 0 < m → ∃ (n : ℤ) (hn : _), 12 * M.log2 (f / A4) + SEMI = fin n hn) {a : Sums} (h : Aligned a) :
    Aligned (addBin M f m a) := by
  by_cases h0 : 0 < m
  swap
  · rw [addBin_zero hT.root_zero h0]; exact h
  obtain ⟨n, hn, e⟩ := hf h0
  have er : F32.round (fin (n : ℚ) hn) = fin n hn := by
    show rnd ((roundAway (n : ℚ) : ℤ) : ℚ) = _
    have : roundAway (n : ℚ) = n := by
      have := abs_le.1 (roundAway_near (n : ℚ))
      have h1 : ((roundAway (n : ℚ) : ℤ) : ℚ) < (n : ℚ) + 1 := by linarith
      have h2 : (n : ℚ) - 1 < ((roundAway (n : ℚ) : ℤ) : ℚ) := by linarith
      have h1' : roundAway (n : ℚ) < n + 1 := by exact_mod_cast h1
      have h2' : n - 1 < roundAway (n : ℚ) := by exact_mod_cast h2
      omega
    rw [this, rnd_val hn]
  unfold addBin
  dsimp only
  rw [e, er, sub_fin, sub_self, rnd_zero, show 2 * PI * (0 : F32) = 0 by decide +kernel, hs, hc]
  obtain ⟨m0, m1⟩ := max_zero_tame hm
  obtain ⟨w0, w1⟩ := hT.root_range _ m0 m1
  generalize M.powf (F32.max m 0) 0.5 = w at w0 w1 ⊢
  obtain ⟨s0, c0, a0, a1⟩ := h
  split_ifs
  · exact ⟨s0, c0, a0, a1⟩
  · obtain ⟨g, eg⟩ := grid77
    rw [eg] at w1
    have w0' := w0
    rw [zero_def] at w0'
    obtain ⟨x, hx, rfl, x0, x1⟩ := between_cases w0' w1
    have e1 : fin x hx * 1 = fin x hx := by rw [one_def, mul_fin, _root_.mul_one, rnd_val hx]
    have e0 : fin x hx * 0 = 0 := by rw [zero_def, mul_fin, MulZeroClass.mul_zero, rnd_zero, zero_def]
    refine ⟨?_, ?_, F32.add_nonneg a0 w0, ?_⟩
    · show a.s + fin x hx * 0 = 0
      rw [s0, e0]; decide +kernel
    · show a.c + fin x hx * 1 = a.w + fin x hx
      rw [e1, c0]
    · exact ne_nan_right (F32.add_nonneg a0 w0)

/-- **C80, in tune.** When every positive magnitude of the counted frames that lies inside the band is at a frequency whose
computed semitone number is an integer, the estimate is 0, whatever the magnitudes (finite), the band and the threshold. -/
theorem C80_in_tune (M : Libm) (hT : TrigSane M) (hs0 : M.sin 0 = 0) (hc0 : M.cos 0 = 1) (hat : ∀ x : F32, 0 < x → M.atan2 0 x = 0)
    (spec : List (List F32)) (sr fft : ℕ) (fminHz fmaxHz : F32) (step : ℕ) (thr : F32)
    (h1 : ∀ fr ∈ spec, fr ≠ []) (h2 : ∀ a ∈ spec, ∀ b ∈ spec, a.length = b.length)
    (hm : ∀ fr ∈ spec, ∀ m ∈ fr, m ≠ inf false)
    (hb : F32.max fminHz 20 + 1 ≤ F32.ofNat sr / 2)
    (ht : ∀ i (h : i < spec.length), i % Nat.max step 1 = 0 → ∀ b m, spec[i][b]? = some m → 0 < m →
      ¬ F32.ofNat b * (F32.ofNat sr / F32.ofNat fft) < F32.max fminHz 20 →
      ∃ (n : ℤ) (hn : _), 12 * M.log2 (F32.ofNat b * (F32.ofNat sr / F32.ofNat fft) / 440) + 57 = fin n hn) :
    estimateTuning M spec sr fft fminHz fmaxHz step thr = .ok 0 := by
  unfold estimateTuning
  by_cases hne : spec = []
  · rw [if_pos hne]
  rw [if_neg hne, checkSpec_ok hne h1 h2, R.ok_bind]
  by_cases h0 : sr = 0 ∨ fft = 0
  · rw [if_pos h0]; rfl
  rw [if_neg h0]
  dsimp only
  have hc : clampP fmaxHz (F32.max fminHz 20 + 1) (F32.ofNat sr / 2) =
      .ok (F32.clamp fmaxHz (F32.max fminHz 20 + 1) (F32.ofNat sr / 2)) := if_pos hb
  rw [hc, R.ok_bind]
  have hev : ∀ fr ∈ everyNth (Nat.max step 1) spec, fr ∈ spec ∧ ∀ b m, fr[b]? = some m → 0 < m →
      ¬ F32.ofNat b * (F32.ofNat sr / F32.ofNat fft) < F32.max fminHz 20 →
      ∃ (n : ℤ) (hn : _), 12 * M.log2 (F32.ofNat b * (F32.ofNat sr / F32.ofNat fft) / 440) + 57 = fin n hn := by
    intro fr hfr
    refine ⟨mem_everyNth hfr, ?_⟩
    unfold everyNth at hfr
    obtain ⟨p, hp, rfl⟩ := List.mem_map.1 hfr
    obtain ⟨hp1, hp2⟩ := List.mem_filter.1 hp
    obtain ⟨k1, k2⟩ := List.mem_zipIdx' hp1
    rw [k2]
    exact ht _ k1 (by simpa using hp2)
  generalize F32.clamp fmaxHz (F32.max fminHz 20 + 1) (F32.ofNat sr / 2) = fmax at *
  generalize F32.max fminHz 20 = fmin at *
  have inner : ∀ (thr : F32) (l : List F32) (i : ℕ) (a : Sums), (∀ m ∈ l, Tame m) →
      (∀ b m, l[b]? = some m → 0 < m → ¬ binFreq sr fft (i + b) < fmin →
        ∃ (n : ℤ) (hn : _), 12 * M.log2 (binFreq sr fft (i + b) / A4) + SEMI = fin n hn) → Aligned a →
      Aligned (sumFrom M sr fft fmin fmax thr i l a) := by
    intro thr l
    induction l with
    | nil => intro i a _ _ h; exact h
    | cons m l ih =>
      intro i a hm' hb' ha
      have hrec := fun a' (h' : Aligned a') => ih (i + 1) a' (fun x hx => hm' x (by simp [hx]))
        (fun b x hx h0 hin => by
          have := hb' (b + 1) x (by simpa using hx) h0
          rw [show i + (b + 1) = i + 1 + b by omega] at this
          exact this hin) h'
      unfold sumFrom
      split_ifs with k1 k2 k3
      · exact hrec a ha
      · exact hrec a ha
      · exact ha
      · refine hrec _ (addBin_aligned hT hs0 hc0 (hm' m (by simp)) (fun hpos => ?_) ha)
        have := hb' 0 m (by simp) hpos
        rw [Nat.add_zero] at this
        exact this k2
  have key : ∀ (l : List (List F32)) (a : Sums), (∀ fr ∈ l, fr ∈ everyNth (Nat.max step 1) spec) → Aligned a →
      Aligned (l.foldl (addFrame M sr fft fmin fmax (F32.clamp thr 0 1)) a) := by
    intro l
    induction l with
    | nil => intro a _ h; exact h
    | cons fr l ih =>
      intro a hs' ha
      rw [List.foldl_cons]
      refine ih _ (fun x hx => hs' x (by simp [hx])) ?_
      obtain ⟨q1, q2⟩ := hev fr (hs' fr (by simp))
      unfold addFrame
      dsimp only
      split_ifs
      · exact ha
      · refine inner _ fr 0 a (hm fr q1) (fun b m h3 h4 h5 => ?_) ha
        rw [Nat.zero_add] at h5 ⊢
        exact q2 b m h3 h4 h5
  have hfin := key _ ⟨0, 0, 0⟩ (fun fr h => h) ⟨rfl, rfl, by decide +kernel, by decide +kernel⟩
  generalize (everyNth (Nat.max step 1) spec).foldl (addFrame M sr fft fmin fmax (F32.clamp thr 0 1)) ⟨0, 0, 0⟩ = a at hfin
  obtain ⟨s0, c0, a0, a1⟩ := hfin
  show Except.ok (circularMean M a) = _
  congr 1
  unfold circularMean
  by_cases hw : a.w ≤ 1e-6
  · rw [if_pos hw]
  · rw [if_neg hw]
    split_ifs
    · rfl
    · have := F32.lt_of_not_le (by decide +kernel) a1 hw
      rw [s0, c0, hat _ (F32.lt_trans (by decide +kernel) this)]
      decide +kernel

/-! ### A single tone -/

theorem max_keep {p x : F32} (hp : 0 ≤ p) (hx : ¬ 0 < x) : F32.max p x = p := by
  have hpn := ne_nan_right hp
  unfold F32.max
  have h1 : p.isNaN = false := by rcases p with _ | _ | _ <;> first | exact absurd rfl hpn | rfl
  rw [if_neg (by simp [h1])]
  by_cases h2 : x.isNaN = true
  · rw [if_pos h2]
  · rw [if_neg h2, if_neg]
    exact fun h => hx (F32.lt_of_le_of_lt hp h)

theorem max_zero_pos {m : F32} (h : 0 < m) : F32.max 0 m = m := by
  have hn := ne_nan_right' h
  unfold F32.max
  have h1 : m.isNaN = false := by rcases m with _ | _ | _ <;> first | exact absurd rfl hn | rfl
  rw [if_neg (by decide +kernel), if_neg (by simp [h1]), if_pos h]

theorem tone_loops {M : Libm} (hz : M.powf 0 0.5 = 0) {sr fft : ℕ} (hs : sr ≤ 2 ^ 64) (hf : 0 < fft) (hf' : fft ≤ 2 ^ 64)
    {fmin fmax thr m : F32} {b : ℕ} (h1 : fmin ≤ binFreq sr fft b) (h2 : binFreq sr fft b ≤ fmax) (hm0 : 0 < m) (ht : ¬ m < thr)
    (a : Sums) : ∀ (l : List F32) (i : ℕ), i + l.length ≤ 2 ^ 64 →
      (∀ j x, l[j]? = some x → i + j ≠ b → fmin ≤ binFreq sr fft (i + j) → binFreq sr fft (i + j) ≤ fmax → ¬ 0 < x) →
      (b < i → (∀ p, 0 ≤ p → peakFrom sr fft fmin fmax i l p = p) ∧ sumFrom M sr fft fmin fmax thr i l a = a) ∧
      (i ≤ b → l[b - i]? = some m → peakFrom sr fft fmin fmax i l 0 = m ∧
        sumFrom M sr fft fmin fmax thr i l a = addBin M (binFreq sr fft b) m a) := by
  intro l
  induction l generalizing a with
  | nil => intro i _ _; exact ⟨fun _ => ⟨fun _ _ => rfl, rfl⟩, fun _ h => by simp at h⟩
  | cons x l ih =>
    intro i hl hsil
    simp only [List.length_cons] at hl
    have hsil' : ∀ j y, l[j]? = some y → i + 1 + j ≠ b → fmin ≤ binFreq sr fft (i + 1 + j) → binFreq sr fft (i + 1 + j) ≤ fmax →
        ¬ 0 < y := by
      intro j y hy hne h3 h4
      exact hsil (j + 1) y (by simpa using hy) (by omega) (by rw [show i + (j + 1) = i + 1 + j by omega]; exact h3)
        (by rw [show i + (j + 1) = i + 1 + j by omega]; exact h4)
    have hn : binFreq sr fft i ≠ nan := freq_ne_nan hs hf hf' (by omega)
    have quiet : i ≠ b → ¬ binFreq sr fft i < fmin → ¬ fmax < binFreq sr fft i → ¬ 0 < x := by
      intro hne k1 k2
      exact hsil 0 x (by simp) (by omega) (by rw [Nat.add_zero]; exact F32.le_of_not_lt (ne_nan_left h1) hn k1)
        (by rw [Nat.add_zero]; exact F32.le_of_not_lt hn (ne_nan_right h2) k2)
    constructor
    · intro hbi
      obtain ⟨r1, r2⟩ := (ih a (i + 1) (by omega) hsil').1 (by omega)
      constructor
      · intro p hp
        unfold peakFrom
        split_ifs with k1 k2
        · exact r1 p hp
        · rfl
        · rw [max_keep hp (quiet (by omega) k1 k2)]; exact r1 p hp
      · unfold sumFrom
        split_ifs with k0 k1 k2
        · exact r2
        · exact r2
        · rfl
        · rw [addBin_zero hz (quiet (by omega) k1 k2)]; exact r2
    · intro hib hx
      by_cases he : i = b
      · subst he
        have hxm : x = m := by simpa using hx
        subst hxm
        constructor
        · unfold peakFrom
          rw [if_neg (F32.not_lt_of_le h1), if_neg (F32.not_lt_of_le h2), max_zero_pos hm0]
          exact ((ih a (i + 1) (by omega) hsil').1 (by omega)).1 _ (F32.le_of_lt hm0)
        · unfold sumFrom
          rw [if_neg ht, if_neg (F32.not_lt_of_le h1), if_neg (F32.not_lt_of_le h2)]
          exact ((ih _ (i + 1) (by omega) hsil').1 (by omega)).2
      · have hx' : l[b - (i + 1)]? = some m := by
          rw [show b - i = b - (i + 1) + 1 by omega] at hx
          simpa using hx
        obtain ⟨r1, r2⟩ := (ih a (i + 1) (by omega) hsil').2 (by omega) hx'
        have hlb : b ≤ 2 ^ 64 := by
          have := (List.getElem?_eq_some_iff.1 hx').1
          omega
        have hmono : binFreq sr fft i ≤ binFreq sr fft b := freq_mono hs hf hf' hlb hib
        have k2 : ¬ fmax < binFreq sr fft i := fun h => F32.lt_irrefl _ (F32.lt_of_lt_of_le h (F32.le_trans hmono h2))
        constructor
        · unfold peakFrom
          split_ifs with k1
          · exact r1
          · rw [max_keep (by decide +kernel) (quiet he k1 k2)]; exact r1
        · unfold sumFrom
          split_ifs with k0 k1
          · exact r2
          · exact r2
          · rw [addBin_zero hz (quiet he k1 k2)]; exact r2

/-- **C80, a single tone.** One frame whose only positive in-band magnitude is at `f`: the estimate is the deviation of `f`
from the nearest semitone (positive when `f` is sharp), up to the error `δ` of the two-argument arctangent at this angle and
`2^-20`. -/
theorem C80_tone (M : Libm) (hM : Sane M) (hz : M.powf 0 0.5 = 0) (frame : List F32) (sr fft : ℕ) (hs : sr ≤ 2 ^ 64) (hs0 : 0 < sr)
    (hf : 0 < fft) (hf' : fft ≤ 2 ^ 64) (fminHz fmaxHz : F32) (step : ℕ) (thr : F32) (hl : frame.length ≤ 2 ^ 64)
    (hb : F32.max fminHz 20 + 1 ≤ F32.ofNat sr / 2) (hx : fmaxHz ≠ nan) (b : ℕ) (m : F32) (hm : frame[b]? = some m)
    (hm0 : 1e-12 < m) (hmf : m.isFinite = true) (f : F32) (hfr : f = F32.ofNat b * (F32.ofNat sr / F32.ofNat fft))
    (h1 : F32.max fminHz 20 ≤ f) (h2 : f ≤ F32.clamp fmaxHz (F32.max fminHz 20 + 1) (F32.ofNat sr / 2))
    (hsil : ∀ j x, frame[j]? = some x → j ≠ b → F32.max fminHz 20 ≤ F32.ofNat j * (F32.ofNat sr / F32.ofNat fft) →
      F32.ofNat j * (F32.ofNat sr / F32.ofNat fft) ≤ F32.clamp fmaxHz (F32.max fminHz 20 + 1) (F32.ofNat sr / 2) → ¬ 0 < x)
    (s w a : F32) (hse : s = 12 * M.log2 (f / 440) + 57) (hwe : w = M.powf m 0.5) (hae : a = 2 * PI * (s - s.round))
    (hw : 1e-6 < w) (hres : ¬ F32.sqrt ((0 + w * M.sin a) * (0 + w * M.sin a) + (0 + w * M.cos a) * (0 + w * M.cos a)) / (0 + w) < 0.05)
    (δ t : ℚ) (ht : _) (hat : M.atan2 (0 + w * M.sin a) (0 + w * M.cos a) = fin t ht) (hδ : |t - a.val| ≤ δ) (hδ1 : δ ≤ 1) :
    ∃ d hd, estimateTuning M [frame] sr fft fminHz fmaxHz step thr = .ok (fin d hd) ∧
      |d - (s.val - (roundAway s.val : ℚ))| ≤ δ / 6 + 1 / 2 ^ 20 := by
  have hpos : 0 < m := F32.lt_trans (by decide +kernel) hm0
  have hfne : frame ≠ [] := by intro h; rw [h] at hm; simp at hm
  have hfmin : (20 : F32) ≤ F32.max fminHz 20 := le_max_right (by decide +kernel)
  obtain ⟨c0, c1⟩ := clamp_mem hx hb
  have hfmax := F32.le_trans c1 (nyq_le hs)
  have hest : estimateTuning M [frame] sr fft fminHz fmaxHz step thr =
      .ok (circularMean M (addBin M f m ⟨0, 0, 0⟩)) := by
    unfold estimateTuning
    rw [if_neg (by simp), checkSpec_ok (by simp) (by simpa using hfne) (by simp), R.ok_bind, if_neg (by omega)]
    dsimp only
    have hc : clampP fmaxHz (F32.max fminHz 20 + 1) (F32.ofNat sr / 2) =
        .ok (F32.clamp fmaxHz (F32.max fminHz 20 + 1) (F32.ofNat sr / 2)) := if_pos hb
    have he : everyNth (Nat.max step 1) [frame] = [frame] := by
      unfold everyNth
      simp
    rw [hc, R.ok_bind, he, List.foldl_cons, List.foldl_nil]
    generalize F32.clamp fmaxHz (F32.max fminHz 20 + 1) (F32.ofNat sr / 2) = fmax at *
    generalize F32.max fminHz 20 = fmin at *
    have ht' : ¬ m < m * F32.clamp thr 0 1 := by
      by_cases hn : thr = nan
      · rw [hn, show F32.clamp nan 0 1 = nan by decide +kernel]
        rcases m with _ | _ | _ <;> exact fun h => absurd h (by simp [F32.lt_def]; try rfl)
      · obtain ⟨t0, t1⟩ := clamp01 hn
        exact F32.not_lt_of_le (mul_le_of_le_one (F32.le_of_lt hpos) t0 t1 hmf).2
    have hloop := (tone_loops hz hs hf hf' (fmin := fmin) (fmax := fmax) (thr := m * F32.clamp thr 0 1) (m := m) (b := b)
      (by rw [show binFreq sr fft b = f from hfr.symm]; exact h1) (by rw [show binFreq sr fft b = f from hfr.symm]; exact h2)
      hpos ht' ⟨0, 0, 0⟩ frame 0 (by omega) (fun j x hj hne k1 k2 => by
        rw [Nat.zero_add] at hne k1 k2
        exact hsil j x hj hne k1 k2)).2 (Nat.zero_le _) (by simpa using hm)
    unfold addFrame
    dsimp only
    rw [hloop.1, if_neg (fun h => F32.lt_irrefl _ (F32.lt_of_lt_of_le hm0 h)), hloop.2,
      show binFreq sr fft b = f from hfr.symm]
    rfl
  obtain ⟨v, hv, es, hvb⟩ := semi_small hM (F32.le_trans hfmin h1) (F32.le_trans h2 hfmax)
  have es' : s = fin v hv := by rw [hse]; exact es
  have hmm : F32.max m 0 = m := by
    rcases max_eq_left_or_right m 0 with h | h
    · exact h
    · exact absurd h (by
        intro h
        have := F32.le_max_left (a := m) (b := 0) (ne_nan_right' hpos)
        rw [h] at this
        exact F32.lt_irrefl _ (F32.lt_of_lt_of_le hpos this))
  have hadd : addBin M f m ⟨0, 0, 0⟩ = ⟨0 + w * M.sin a, 0 + w * M.cos a, 0 + w⟩ := by
    unfold addBin
    dsimp only
    rw [hmm, ← hwe, if_neg (fun h => F32.lt_irrefl _ (F32.lt_of_lt_of_le (F32.lt_trans (by decide +kernel) hw) h))]
    have e1 : 12 * M.log2 (f / A4) + SEMI = s := hse.symm
    rw [e1, ← hae]
  have hcm : circularMean M (addBin M f m ⟨0, 0, 0⟩) = fin t ht / (2 * PI) := by
    rw [hadd]
    unfold circularMean
    dsimp only
    rw [if_neg, if_neg hres, hat]
    intro h
    have hz0 : 0 + w = w := zero_add_left w
    rw [hz0] at h
    exact F32.lt_irrefl _ (F32.lt_of_lt_of_le hw h)
  rw [hest, hcm]
  -- the error
  obtain ⟨g, ep⟩ : ∃ h, 2 * PI = fin (2 * PI.val) h := ⟨by decide +kernel, by decide +kernel⟩
  have hp3 : (3.14 : ℚ) < PI.val := by decide +kernel
  have hp4 : PI.val < (3.15 : ℚ) := by decide +kernel
  have hr := roundAway_near v
  obtain ⟨hgr, er⟩ : ∃ h, F32.round (fin v hv) = fin (roundAway v : ℚ) h := by
    have hb : |roundAway v| ≤ 4097 := by
      have h1 := abs_le.1 hr
      have h2 := abs_le.1 hvb
      have a1 : (roundAway v : ℚ) ≤ ((4097 : ℤ) : ℚ) := by push_cast; linarith
      have a2 : ((-4097 : ℤ) : ℚ) ≤ (roundAway v : ℚ) := by push_cast; linarith
      rw [abs_le]
      exact ⟨by exact_mod_cast a2, by exact_mod_cast a1⟩
    exact ofInt_exact (n := roundAway v) (by have := abs_le.1 hb; rw [abs_le]; constructor <;> omega)
  have g2 : OnGrid (1 / 2 : ℚ) ∧ |(1 / 2 : ℚ)| < pow2 128 := by decide +kernel
  obtain ⟨hq, eq, hqb⟩ := rnd_finite_of_abs_le g2 hr
  have g8 : OnGrid (8 : ℚ) ∧ |(8 : ℚ)| < pow2 128 := by decide +kernel
  have hab : |2 * PI.val * rndQ (v - roundAway v)| ≤ 4 := by
    rw [_root_.abs_mul, abs_of_pos (show 0 < 2 * PI.val by linarith)]
    nlinarith [abs_nonneg (rndQ (v - roundAway v))]
  obtain ⟨ha, ea, hab'⟩ := rnd_finite_of_abs_le (q := 2 * PI.val * rndQ (v - roundAway v)) g8 (by linarith)
  have eaa : a = fin (rndQ (2 * PI.val * rndQ (v - roundAway v))) ha := by
    rw [hae, es', er, sub_fin, eq, ep, mul_fin, ea]
  rw [eaa] at hδ
  have hval : (fin (rndQ (2 * PI.val * rndQ (v - roundAway v))) ha).val = rndQ (2 * PI.val * rndQ (v - roundAway v)) := rfl
  rw [hval] at hδ
  have hsv : s.val = v := by rw [es']; rfl
  rw [hsv]
  have p24 : pow2 (-24) = 1 / 2 ^ 24 := by decide +kernel
  have p150 : pow2 (-150) ≤ 1 / 2 ^ 40 := by decide +kernel
  have m1 := abs_rndQ_sub_le_mix (v - roundAway v)
  have m2 := abs_rndQ_sub_le_mix (2 * PI.val * rndQ (v - roundAway v))
  generalize rndQ (2 * PI.val * rndQ (v - roundAway v)) = A at *
  generalize rndQ (v - roundAway v) = ρ at *
  have htb : |t| ≤ 9 := by
    have : |t| ≤ |t - A| + |A| := by have := abs_add_le (t - A) A; simpa using this
    linarith
  rw [ep, div_fin (by linarith)]
  have hqb4 : |t / (2 * PI.val)| ≤ 2 := by
    rw [abs_div, abs_of_pos (show 0 < 2 * PI.val by linarith), div_le_iff₀ (by linarith)]
    linarith
  obtain ⟨hd, ed, _⟩ := rnd_finite_of_abs_le (q := t / (2 * PI.val)) g8 (by linarith)
  refine ⟨_, hd, by rw [ed], ?_⟩
  have m3 := abs_rndQ_sub_le_mix (t / (2 * PI.val))
  generalize rndQ (t / (2 * PI.val)) = D at *
  have k1 : |ρ - (v - roundAway v)| ≤ 1 / 2 ^ 23 := by
    refine m1.trans ?_
    rw [p24]
    have : |v - (roundAway v : ℚ)| * (1 / 2 ^ 24) ≤ 1 / 2 * (1 / 2 ^ 24) := by
      apply mul_le_mul_of_nonneg_right hr (by norm_num)
    linarith [show (1 : ℚ) / 2 * (1 / 2 ^ 24) + 1 / 2 ^ 40 ≤ 1 / 2 ^ 23 by norm_num]
  have k2 : |A - 2 * PI.val * ρ| ≤ 1 / 2 ^ 21 := by
    refine m2.trans ?_
    rw [p24]
    have : |2 * PI.val * ρ| * (1 / 2 ^ 24) ≤ 4 * (1 / 2 ^ 24) := by
      apply mul_le_mul_of_nonneg_right hab (by norm_num)
    linarith [show (4 : ℚ) * (1 / 2 ^ 24) + 1 / 2 ^ 40 ≤ 1 / 2 ^ 21 by norm_num]
  have k3 : |D - t / (2 * PI.val)| ≤ 1 / 2 ^ 22 := by
    refine m3.trans ?_
    rw [p24]
    have : |t / (2 * PI.val)| * (1 / 2 ^ 24) ≤ 2 * (1 / 2 ^ 24) := by
      apply mul_le_mul_of_nonneg_right hqb4 (by norm_num)
    linarith [show (2 : ℚ) * (1 / 2 ^ 24) + 1 / 2 ^ 40 ≤ 1 / 2 ^ 22 by norm_num]
  have k4 : |t / (2 * PI.val) - ρ| ≤ δ / 6 + 1 / 2 ^ 23 := by
    have : t / (2 * PI.val) - ρ = (t - 2 * PI.val * ρ) / (2 * PI.val) := by field_simp
    rw [this, abs_div, abs_of_pos (show 0 < 2 * PI.val by linarith), div_le_iff₀ (by linarith)]
    have h5 : |t - 2 * PI.val * ρ| ≤ δ + 1 / 2 ^ 21 := by
      have := abs_add_le (t - A) (A - 2 * PI.val * ρ)
      rw [show t - A + (A - 2 * PI.val * ρ) = t - 2 * PI.val * ρ by ring] at this
      linarith
    have hδ0 : 0 ≤ δ := (_root_.abs_nonneg _).trans hδ
    nlinarith
  have f1 := abs_add_le (D - t / (2 * PI.val)) (t / (2 * PI.val) - ρ)
  have f2 := abs_add_le (D - t / (2 * PI.val) + (t / (2 * PI.val) - ρ)) (ρ - (v - roundAway v))
  rw [show D - t / (2 * PI.val) + (t / (2 * PI.val) - ρ) + (ρ - (v - roundAway v)) = D - (v - roundAway v) by ring] at f2
  linarith [show (1 : ℚ) / 2 ^ 22 + 1 / 2 ^ 23 + 1 / 2 ^ 23 ≤ 1 / 2 ^ 20 by norm_num]

/-! ### Where the claims fail -/

/-- **C80, violated: the band check panics.** Whenever the lower end of the band (at least 20 Hz) is less than 1 Hz below half
the sample rate, `f32::clamp` panics, for every well-formed non-empty spectrogram: a caller's settings for 44.1 kHz are not
rejected with `InvalidInput` at a low sample rate. -/
theorem C80_violated (M : Libm) (spec : List (List F32)) (sr fft : ℕ) (fminHz fmaxHz : F32) (step : ℕ) (thr : F32)
    (hne : spec ≠ []) (h1 : ∀ fr ∈ spec, fr ≠ []) (h2 : ∀ a ∈ spec, ∀ b ∈ spec, a.length = b.length) (hs : 0 < sr) (hf : 0 < fft)
    (hb : ¬ F32.max fminHz 20 + 1 ≤ F32.ofNat sr / 2) :
    estimateTuning M spec sr fft fminHz fmaxHz step thr = R.panic := by
  unfold estimateTuning
  rw [if_neg hne, checkSpec_ok hne h1 h2, R.ok_bind, if_neg (by omega)]
  dsimp only
  have hc : clampP fmaxHz (F32.max fminHz 20 + 1) (F32.ofNat sr / 2) = R.panic := if_neg hb
  rw [hc]; rfl

/-- at 160 Hz with the band 80-2000 Hz of the analysis -/
example : ¬ F32.max 80 20 + 1 ≤ F32.ofNat 160 / 2 := by decide +kernel

/-- **C80, violated: an infinite magnitude gives NaN**: one bin, exactly on A4. -/
theorem C80_violated_infinite (M : Libm) (hp : M.powf (inf false) 0.5 = inf false) (hl : M.log2 1 = 0) (hs : M.sin 0 = 0)
    (hc : M.cos 0 = 1) (ha : ∀ x, M.atan2 nan x = nan) :
    estimateTuning M [[0, inf false, 0]] 1760 4 80 2000 1 0.35 = .ok nan := by
  have hb : addBin M 440 (inf false) ⟨0, 0, 0⟩ = ⟨nan, inf false, inf false⟩ := by
    unfold addBin
    dsimp only
    rw [show F32.max (inf false) 0 = inf false by decide +kernel, hp, show (440 : F32) / A4 = 1 by decide +kernel, hl,
      show 2 * PI * ((12 : F32) * 0 + SEMI - F32.round ((12 : F32) * 0 + SEMI)) = 0 by decide +kernel, hs, hc,
      if_neg (by decide +kernel), show (0 : F32) + inf false * 0 = nan by decide +kernel,
      show (0 : F32) + inf false * 1 = inf false by decide +kernel, show (0 : F32) + inf false = inf false by decide +kernel]
  have hfr : addFrame M 1760 4 80 880 0.35 ⟨0, 0, 0⟩ [0, inf false, 0] = ⟨nan, inf false, inf false⟩ := by
    unfold addFrame
    dsimp only
    rw [show peakFrom 1760 4 80 880 0 [0, inf false, 0] 0 = inf false by decide +kernel, if_neg (by decide +kernel),
      show (inf false : F32) * 0.35 = inf false by decide +kernel]
    unfold sumFrom
    rw [if_pos (by decide +kernel)]
    unfold sumFrom
    rw [if_neg (by decide +kernel), if_neg (by decide +kernel), if_neg (by decide +kernel),
      show binFreq 1760 4 (0 + 1) = 440 by decide +kernel, hb]
    unfold sumFrom
    rw [if_pos (by decide +kernel)]
    rfl
  have hcm : circularMean M ⟨nan, inf false, inf false⟩ = nan := by
    unfold circularMean
    dsimp only
    rw [if_neg (by decide +kernel), if_neg (by decide +kernel), ha]
    decide +kernel
  unfold estimateTuning
  rw [if_neg (by simp), checkSpec_ok (by simp) (by simp) (by simp), R.ok_bind, if_neg (by norm_num)]
  dsimp only
  rw [show F32.max 80 20 = 80 by decide +kernel, show clampP 2000 (80 + 1) (F32.ofNat 1760 / 2) = .ok 880 by decide +kernel, R.ok_bind,
    show F32.clamp 0.35 0 1 = 0.35 by decide +kernel, show everyNth (Nat.max 1 1) [[0, inf false, (0 : F32)]] = [[0, inf false, 0]] by decide +kernel,
    List.foldl_cons, List.foldl_nil, hfr, hcm]
  rfl

/-! ### Examples -/

/-- a library for the examples: sine and cosine of small angles replaced by their first terms, the arctangent by the quotient -/
def trigLibm : Libm := { saneLibm with
  sin := fun a => F32.max (-1) (F32.min a 1)
  cos := fun _ => 1
  atan2 := fun y x => F32.max (-PI) (F32.min (y / x) PI)
  powf := fun x _ => F32.min x 1
  log2 := fun x => if x < 1 then -1 else if x ≤ 1 then 0 else 0.01 }

theorem pinch {lo hi x : F32} {b : ℚ} (h1 : ∃ h, lo = fin (-b) h) (h2 : ∃ h, hi = fin b h) (hb : 0 ≤ b) :
    ∃ v hv, F32.max lo (F32.min x hi) = fin v hv ∧ |v| ≤ b := by
  obtain ⟨g1, rfl⟩ := h1
  obtain ⟨g2, rfl⟩ := h2
  rcases max_eq_left_or_right (fin (-b) g1) (F32.min x (fin b g2)) with e | e
  · exact ⟨-b, g1, e, by rw [abs_neg, abs_of_nonneg hb]⟩
  · have h1 : fin (-b) g1 ≤ F32.max (fin (-b) g1) (F32.min x (fin b g2)) := F32.le_max_left (by simp)
    have h2 : F32.min x (fin b g2) ≤ fin b g2 := F32.min_le_right (by simp)
    rw [e] at h1 ⊢
    obtain ⟨v, hv, ev, v0, v1⟩ := between_cases h1 h2
    exact ⟨v, hv, ev, abs_le.2 ⟨v0, v1⟩⟩

theorem trig_demo : TrigSane trigLibm where
  sin_range := fun a _ => pinch (b := 1) ⟨by decide +kernel, by decide +kernel⟩ ⟨by decide +kernel, by decide +kernel⟩ (by norm_num)
  cos_range := fun _ _ => ⟨1, by decide +kernel, show (1 : F32) = _ by decide +kernel, by norm_num⟩
  atan2_range := fun y x _ _ => pinch (b := PI.val) ⟨by decide +kernel, by decide +kernel⟩ ⟨by decide +kernel, by decide +kernel⟩
    (by decide +kernel)
  root_range := by
    intro x h0 hf
    show 0 ≤ F32.min x 1 ∧ F32.min x 1 ≤ _
    exact ⟨F32.le_min h0 (by decide +kernel), F32.le_trans (F32.min_le_right (by decide +kernel)) (by decide +kernel)⟩
  root_zero := by decide +kernel

theorem sane_trig : Sane trigLibm where
  powf_range := sane_demo.powf_range
  powf_zero := sane_demo.powf_zero
  exp_range := sane_demo.exp_range
  log2_range := by
    intro x _ _
    show ∃ v hv, (if x < 1 then -1 else if x ≤ 1 then 0 else 0.01) = fin v hv ∧ |v| ≤ 200
    split_ifs
    · exact ⟨-1, by decide +kernel, by decide +kernel, by norm_num⟩
    · exact ⟨0, by decide +kernel, by decide +kernel, by norm_num⟩
    · exact ⟨(0.01 : F32).val, by decide +kernel, by decide +kernel, by decide +kernel⟩

/-- two counted frames and one that is not; the tone of the third is 0.12 of a semitone sharp, and the answer lies between -/
example : (match estimateTuning trigLibm [[0, 1, nan, 0, -2], [0, 5, 5, 5, 5], [0, 0, 1, 0, 0]] 3520 8 80 2000 2 0.35 with
    | .ok d => decide (0.05 < d ∧ d < 0.07) | _ => false) = true := by decide +kernel

/-- the hypotheses of `C80_range_partial` and `C80_frames` -/
example : Sane trigLibm ∧ TrigSane trigLibm ∧ F32.max 80 20 + 1 ≤ F32.ofNat 3520 / 2 ∧
    (∀ fr ∈ [[0, 1, nan, 0, -2], [0, 5, 5, 5, 5], [0, 0, 1, 0, (0 : F32)]], ∀ m ∈ fr, m ≠ inf false) ∧
    estimateTuning trigLibm [[0, 1, nan, 0, -2], [0, 5, 5, 5, 5], [0, 0, 1, 0, 0]] 3520 8 80 2000 2 0.35 =
      estimateTuning trigLibm [[0, 1, nan, 0, -2], [0, 0, 0, 9, 0], [0, 0, 1, 0, 0]] 3520 8 80 2000 2 0.35 :=
  ⟨sane_trig, trig_demo, by decide +kernel, by decide +kernel, by decide +kernel⟩

/-- silence in the counted frames only -/
example : estimateTuning trigLibm [[0, 0, nan, -1], [9, 9, 9, 9]] 3520 8 80 2000 2 0.35 = .ok 0 := by decide +kernel

/-- A4 and its octaves down (as far as this library distinguishes) are in tune; a tone outside the band is not looked at -/
example : estimateTuning trigLibm [[7, 1, 0, 0, 0], [7, 3, 0, 0, 0]] 3520 8 80 2000 1 0.35 = .ok 0 ∧ trigLibm.sin 0 = 0 ∧
    trigLibm.cos 0 = 1 ∧ 12 * trigLibm.log2 (F32.ofNat 1 * (F32.ofNat 3520 / F32.ofNat 8) / 440) + 57 = F32.ofNat 57 := by
  decide +kernel

/-- the hypotheses of `C80_tone`: a tone 0.12 of a semitone sharp -/
example : let s := 12 * trigLibm.log2 (880 / 440) + 57
    let a := 2 * PI * (s - s.round)
    let w := trigLibm.powf 1 0.5
    F32.ofNat 2 * (F32.ofNat 3520 / F32.ofNat 8) = 880 ∧ F32.max 80 20 ≤ 880 ∧
    (880 : F32) ≤ F32.clamp 2000 (F32.max 80 20 + 1) (F32.ofNat 3520 / 2) ∧ 1e-6 < w ∧
    ¬ F32.sqrt ((0 + w * trigLibm.sin a) * (0 + w * trigLibm.sin a) + (0 + w * trigLibm.cos a) * (0 + w * trigLibm.cos a)) / (0 + w) < 0.05 ∧
    |(trigLibm.atan2 (0 + w * trigLibm.sin a) (0 + w * trigLibm.cos a)).val - a.val| ≤ 1 / 1000 ∧
    (match estimateTuning trigLibm [[0, 0, 1, 0, 0]] 3520 8 80 2000 2 0.35 with
      | .ok d => decide (0.119 < d ∧ d < 0.121) | _ => false) = true := by decide +kernel

end Verif.Props
