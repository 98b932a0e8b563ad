/-
Audible frames give unit chroma vectors (C66); L2 normalisation and sharpening (C68).
-/
import Verif.Props.ChromaMap

namespace Verif.Props
open Verif F32 Chroma

/-! ### Audible frames -/

/-- twelve non-negative numbers, below `2^50` -/
def Acc50 (c : List F32) : Prop := c.length = 12 ∧ ∀ x ∈ c, 0 ≤ x ∧ x ≤ rnd (pow2 50)

/-- some entry is at least `2^-30` -/
def Loud (c : List F32) : Prop := ∃ x ∈ c, rnd (pow2 (-30)) ≤ x

theorem add_sat50 {x v : F32} (h0 : 0 ≤ x) (h1 : x ≤ rnd (pow2 50)) (h2 : 0 ≤ v) (h3 : v ≤ rnd (pow2 26)) :
    0 ≤ x + v ∧ x + v ≤ rnd (pow2 50) ∧ x ≤ x + v ∧ v ≤ x + v := by
  obtain ⟨g, eg⟩ : ∃ h, rnd (pow2 50) = fin (pow2 50) h := ⟨by decide +kernel, by decide +kernel⟩
  obtain ⟨g', eg'⟩ : ∃ h, rnd (pow2 26) = fin (pow2 26) h := ⟨by decide +kernel, by decide +kernel⟩
  have hsat : rnd (pow2 50 + pow2 26) = rnd (pow2 50) := by decide +kernel
  rw [eg] at h1; rw [eg'] at h3
  rw [zero_def] at h0 h2
  obtain ⟨a, ha, rfl, ha0, ha1⟩ := between_cases h0 h1
  obtain ⟨b, hb, rfl, hb0, hb1⟩ := between_cases h2 h3
  rw [add_fin]
  refine ⟨rnd_nonneg (by linarith), ?_, fin_le_rnd (by linarith), fin_le_rnd (by linarith)⟩
  rw [← hsat]
  exact rnd_mono (by linarith)

theorem addAt_50 {c : List F32} (h : Acc50 c) {k : ℕ} (hk : k < 12) {v : F32} (h2 : 0 ≤ v) (h3 : v ≤ rnd (pow2 26)) :
    ∃ c', addAt c k v = .ok c' ∧ Acc50 c' ∧ (Loud c → Loud c') ∧ (rnd (pow2 (-30)) ≤ v → Loud c') := by
  unfold addAt
  have hkl : k < c.length := by rw [h.1]; exact hk
  rw [if_pos hkl]
  have hget : ∀ (i : ℕ) (hi : i < c.length), ∃ y ∈ c.modify k (fun x => x + v), c[i] ≤ y ∧ (i = k → v ≤ y) := by
    intro i hi
    have hi' : i < (c.modify k (fun x => x + v)).length := by rw [List.length_modify]; exact hi
    refine ⟨(c.modify k (fun x => x + v))[i], List.getElem_mem hi', ?_⟩
    rw [List.getElem_modify]
    obtain ⟨x0, x1⟩ := h.2 _ (List.getElem_mem hi)
    obtain ⟨a, b, d, e⟩ := add_sat50 x0 x1 h2 h3
    by_cases hki : k = i
    · rw [if_pos hki]; exact ⟨d, fun _ => e⟩
    · rw [if_neg hki]; exact ⟨F32.le_refl (ne_nan_right x0), fun h => absurd h.symm hki⟩
  refine ⟨_, rfl, ⟨by rw [List.length_modify]; exact h.1, fun y hy => ?_⟩, ?_, ?_⟩
  · rcases mem_modify hy with hy | ⟨x, hx, rfl⟩
    · exact h.2 y hy
    · obtain ⟨a, b, _⟩ := add_sat50 (h.2 x hx).1 (h.2 x hx).2 h2 h3
      exact ⟨a, b⟩
  · rintro ⟨x, hx, hlo⟩
    obtain ⟨i, hi, rfl⟩ := List.mem_iff_getElem.1 hx
    obtain ⟨y, hy, h1, _⟩ := hget i hi
    exact ⟨y, hy, F32.le_trans hlo h1⟩
  · intro hv
    obtain ⟨y, hy, _, h1⟩ := hget k hkl
    exact ⟨y, hy, F32.le_trans hv (h1 rfl)⟩

theorem weighted26 {c w : F32} (h0 : 0 ≤ c) (h1 : c ≤ rnd (pow2 26)) (h2 : 0 ≤ w) (h3 : w ≤ 1) :
    0 ≤ c * w ∧ c * w ≤ rnd (pow2 26) := by
  obtain ⟨g', eg'⟩ : ∃ h, rnd (pow2 26) = fin (pow2 26) h := ⟨by decide +kernel, by decide +kernel⟩
  rw [eg'] at h1 ⊢
  rw [zero_def] at h0 h2
  rw [one_def] at h3
  obtain ⟨a, ha, rfl, ha0, ha1⟩ := between_cases h0 h1
  obtain ⟨b, hb, rfl, hb0, hb1⟩ := between_cases h2 h3
  rw [mul_fin]
  exact ⟨rnd_nonneg (by positivity), rnd_le_fin (by nlinarith)⟩

theorem mapStep_50 {M : Libm} (hM : Sane M) (soft : Bool) (hE : soft = true → SaneExp M) (sigma : F32)
    (hsg : soft = true → 0.1 ≤ sigma) {semi p : F32} (hs : semi.isFinite = true)
    (h0 : 0 ≤ p) (h1 : p ≤ rnd (pow2 26)) {c : List F32} (h : Acc50 c) :
    ∃ c', mapStep M soft sigma semi p c = .ok c' ∧ Acc50 c' ∧ (Loud c → Loud c') ∧ (rnd (pow2 (-10)) ≤ p → Loud c') := by
  unfold mapStep
  cases soft
  · obtain ⟨c', e, a, b, d⟩ := addAt_50 h (k := (hardClass semi).toNat) (by have := hardClass_range semi; omega) h0 h1
    exact ⟨c', e, a, b, fun hp => d (F32.le_trans (by decide +kernel) hp)⟩
  · simp only [if_true]
    obtain ⟨v, hv, e, hv0, hv12⟩ := remEuclid_range hs
    obtain ⟨hP, a0, a1⟩ := primary_eq (hv := hv) hv0 hv12
    unfold softStep
    simp only [e]
    have step : ∀ (off : ℤ) (c : List F32), Acc50 c → ∃ c', addAt c ((primaryClass (fin v hv) + off) % 12).toNat
        (p * softWeight M sigma (fin v hv) ((primaryClass (fin v hv) + off) % 12)) = .ok c' ∧ Acc50 c' ∧
        (Loud c → Loud c') ∧
        (rnd (pow2 (-30)) ≤ p * softWeight M sigma (fin v hv) ((primaryClass (fin v hv) + off) % 12) → Loud c') := by
      intro off c hc
      have t0 := Int.emod_nonneg (primaryClass (fin v hv) + off) (by norm_num : (12 : ℤ) ≠ 0)
      have t1 := Int.emod_lt_of_pos (primaryClass (fin v hv) + off) (by norm_num : (0 : ℤ) < 12)
      obtain ⟨w0, w1⟩ := softWeight_range hM (sigma := sigma) (hv := hv) hv0 hv12 t0 t1
      obtain ⟨b0, b1⟩ := weighted26 h0 h1 w0 w1
      exact addAt_50 hc (by omega) b0 b1
    simp only [List.foldlM_cons, List.foldlM_nil]
    obtain ⟨c1, e1, k1, l1, _⟩ := step (-1) c h
    obtain ⟨c2, e2, k2, l2, m2⟩ := step 0 c1 k1
    obtain ⟨c3, e3, k3, l3, _⟩ := step 1 c2 k2
    refine ⟨c3, ?_, k3, fun hc => l3 (l2 (l1 hc)), fun hp => l3 (m2 ?_)⟩
    · rw [e1]; simp only [R.ok_bind]
      rw [e2]; simp only [R.ok_bind]
      rw [e3]; rfl
    · -- the weight of the nearest class is at least 2^-20
      have ht : (primaryClass (fin v hv) + 0) % 12 = roundAway v % 12 := by rw [hP]; omega
      rw [ht]
      have tm : 0 ≤ roundAway v % 12 ∧ roundAway v % 12 < 12 := by omega
      obtain ⟨w0, w1⟩ := softWeight_range hM (sigma := sigma) (hv := hv) hv0 hv12 tm.1 tm.2
      obtain ⟨m, hm, em, m0, m12, mn, -⟩ := circ_val (hv := hv) hv0 hv12 tm.1 tm.2
      have hnear := abs_le.1 (roundAway_near v)
      have hmh : m ≤ 1 / 2 := by
        apply mn
        by_cases hn : roundAway v = 12
        · right
          have e0 : roundAway v % 12 = 0 := by omega
          rw [e0]; rw [hn] at hnear; push_cast at hnear ⊢
          rw [sub_zero, abs_of_nonneg hv0]; linarith
        · left
          have e0 : roundAway v % 12 = roundAway v := by omega
          rw [e0, abs_le]; constructor <;> linarith
      have wlo : rnd (pow2 (-20)) ≤ softWeight M sigma (fin v hv) (roundAway v % 12) := by
        have := near_weight (hE rfl) (hsg rfl) (hd := hm) m0 hmh
        rw [← em] at this
        exact this
      generalize softWeight M sigma (fin v hv) (roundAway v % 12) = w at *
      obtain ⟨g10, e10⟩ : ∃ h, rnd (pow2 (-10)) = fin (pow2 (-10)) h := ⟨by decide +kernel, by decide +kernel⟩
      obtain ⟨g20, e20⟩ : ∃ h, rnd (pow2 (-20)) = fin (pow2 (-20)) h := ⟨by decide +kernel, by decide +kernel⟩
      obtain ⟨g26, e26⟩ : ∃ h, rnd (pow2 26) = fin (pow2 26) h := ⟨by decide +kernel, by decide +kernel⟩
      rw [e10] at hp; rw [e26] at h1; rw [e20] at wlo
      rw [one_def] at w1
      obtain ⟨a, ha, rfl, a1', _⟩ := between_cases hp h1
      obtain ⟨b, hb, rfl, b1, _⟩ := between_cases wlo w1
      rw [mul_fin]
      apply rnd_mono
      have : pow2 (-30) = pow2 (-10) * pow2 (-20) := by decide +kernel
      rw [this]
      exact _root_.mul_le_mul a1' b1 (pow2_pos _).le ((pow2_pos _).le.trans a1')

/-- contributions of a frame of ordinary loudness -/
def Ordinary (M : Libm) (frame : List F32) : Prop :=
  ∀ m ∈ frame, m ≠ inf false ∧ M.powf (F32.max m 0) 0.6 ≤ rnd (pow2 26)

theorem binLoop_50 {M : Libm} (hM : Sane M) {sr fft : ℕ} (hs : sr ≤ 2 ^ 64) (hf : 0 < fft) (hf' : fft ≤ 2 ^ 64)
    (soft : Bool) (hE : soft = true → SaneExp M) (sigma : F32) (hsg : soft = true → 0.1 ≤ sigma)
    {tuning : F32} (ht : tuning.isFinite = true) :
    ∀ (frame : List F32) (i : ℕ) (c : List F32), Ordinary M frame → i + frame.length ≤ 2 ^ 64 → Acc50 c →
      ∃ c', binLoop M sr fft soft sigma tuning i frame c = .ok c' ∧ Acc50 c' ∧ (Loud c → Loud c') ∧
        ∀ i₀ m, i ≤ i₀ → frame[i₀ - i]? = some m → FMIN ≤ F32.ofNat i₀ * (F32.ofNat sr / F32.ofNat fft) →
          F32.ofNat i₀ * (F32.ofNat sr / F32.ofNat fft) ≤ FMAX →
          F32.ofNat i₀ * (F32.ofNat sr / F32.ofNat fft) < nyquist sr →
          rnd (pow2 (-10)) ≤ M.powf (F32.max m 0) 0.6 → Loud c' := by
  intro frame
  induction frame with
  | nil => intro i c _ _ h; exact ⟨c, rfl, h, fun h => h, by simp⟩
  | cons x xs ih =>
    intro i c hm hi hc
    rw [List.length_cons] at hi
    have hms : Ordinary M xs := fun y hy => hm y (by simp [hy])
    have shift : ∀ {i₀ : ℕ} {m : F32}, i ≤ i₀ → i ≠ i₀ → (x :: xs)[i₀ - i]? = some m → xs[i₀ - (i + 1)]? = some m := by
      intro i₀ m h1 h2 h3
      have : i₀ - i = (i₀ - (i + 1)) + 1 := by omega
      rw [this] at h3; simpa using h3
    have early : ∀ {i₀ : ℕ} {m : F32}, i ≤ i₀ → (x :: xs)[i₀ - i]? = some m →
        F32.ofNat i₀ * (F32.ofNat sr / F32.ofNat fft) ≤ FMAX →
        F32.ofNat i₀ * (F32.ofNat sr / F32.ofNat fft) < nyquist sr →
        ¬ F32.min FMAX (nyquist sr) < F32.ofNat i * (F32.ofNat sr / F32.ofNat fft) ∧
        ¬ nyquist sr ≤ F32.ofNat i * (F32.ofNat sr / F32.ofNat fft) := by
      intro i₀ m h1 h2 h3 h4
      have hl := (List.getElem?_eq_some_iff.1 h2).1
      rw [List.length_cons] at hl
      have hmono := freq_mono (i := i) (j := i₀) hs hf hf' (by omega) h1
      refine ⟨fun h => ?_, fun h => absurd (F32.lt_of_le_of_lt hmono h4) (F32.not_lt_of_le h)⟩
      rcases min_eq_left_or_right FMAX (nyquist sr) with e | e <;> rw [e] at h
      · exact absurd h (F32.not_lt_of_le (F32.le_trans hmono h3))
      · exact F32.lt_irrefl _ (F32.lt_trans h (F32.lt_of_le_of_lt hmono h4))
    unfold binLoop
    simp only
    by_cases h1 : F32.ofNat i * (F32.ofNat sr / F32.ofNat fft) < FMIN
    · rw [if_pos h1]
      obtain ⟨c', e, a, b, d⟩ := ih (i + 1) c hms (by omega) hc
      refine ⟨c', e, a, b, fun i₀ m hi0 hg f1 f2 f3 hp => ?_⟩
      by_cases he : i = i₀
      · subst he; exact absurd h1 (F32.not_lt_of_le f1)
      · exact d i₀ m (by omega) (shift hi0 he hg) f1 f2 f3 hp
    rw [if_neg h1]
    by_cases h2 : F32.min FMAX (nyquist sr) < F32.ofNat i * (F32.ofNat sr / F32.ofNat fft)
    · rw [if_pos h2]
      exact ⟨c, rfl, hc, fun h => h, fun i₀ m hi0 hg f1 f2 f3 hp => absurd h2 (early hi0 hg f2 f3).1⟩
    rw [if_neg h2]
    by_cases h3 : nyquist sr ≤ F32.ofNat i * (F32.ofNat sr / F32.ofNat fft)
    · rw [if_pos h3]
      exact ⟨c, rfl, hc, fun h => h, fun i₀ m hi0 hg f1 f2 f3 hp => absurd h3 (early hi0 hg f2 f3).2⟩
    rw [if_neg h3]
    obtain ⟨f1, f2⟩ := freq_used hs hf hf' (by omega) h1 h2
    obtain ⟨ht1, ht2⟩ := hm x (by simp)
    obtain ⟨m0, mf⟩ := max_zero_tame (m := x) ht1
    obtain ⟨p0, _⟩ := hM.powf_range _ m0 mf
    obtain ⟨c1, e1, k1, l1, n1⟩ := mapStep_50 hM soft hE sigma hsg (semitone_finite hM f1 f2 ht) p0 ht2 hc
    rw [e1]
    obtain ⟨c', e, a, b, d⟩ := ih (i + 1) c1 hms (by omega) k1
    refine ⟨c', e, a, fun h => b (l1 h), fun i₀ m hi0 hg g1 g2 g3 hp => ?_⟩
    by_cases he : i = i₀
    · subst he
      have hx : x = m := by simpa using hg
      subst hx
      exact b (n1 hp)
    · exact d i₀ m (by omega) (shift hi0 he hg) g1 g2 g3 hp

/-- **C66 (partial): audible frames of ordinary loudness have unit chroma.** If every `magnitude^0.6` is
at most `2^26` and some bin between 100 Hz and 5 kHz (below the Nyquist frequency) has `magnitude^0.6 ≥
2^-10`, the chroma vector has unit Euclidean length up to `18 / 2^22`.  Missing: very loud and very quiet
frames (`C66_violated`, `C66_unit_partial`). -/
theorem C66_audible_partial (M : Libm) (hM : Sane M) (sr fft : ℕ) (hs : sr ≤ 2 ^ 64) (hf : 0 < fft) (hf' : fft ≤ 2 ^ 64)
    (soft : Bool) (hE : soft = true → SaneExp M) (sigma : F32) (hsg : soft = true → 0.1 ≤ sigma)
    (tuning : F32) (ht : tuning.isFinite = true) (frame : List F32) (hl : frame.length ≤ 2 ^ 64)
    (hm : ∀ m ∈ frame, m ≠ inf false ∧ M.powf (F32.max m 0) 0.6 ≤ rnd (pow2 26))
    (i : ℕ) (m f : F32) (hi : frame[i]? = some m) (hfr : f = F32.ofNat i * (F32.ofNat sr / F32.ofNat fft))
    (h1 : 100 ≤ f) (h2 : f ≤ 5000) (h3 : f < F32.ofNat sr / 2) (hp : rnd (pow2 (-10)) ≤ M.powf (F32.max m 0) 0.6) :
    ∃ c, frameToChroma M sr fft soft sigma tuning frame = .ok c ∧ c.length = 12 ∧ |exactSq c - 1| ≤ 18 / 2 ^ 22 := by
  have hz : Acc50 zero12 := by
    refine ⟨rfl, fun x hx => ?_⟩
    have := List.eq_of_mem_replicate hx
    subst this
    decide +kernel
  subst hfr
  obtain ⟨c, e, hc, _, hloud⟩ := binLoop_50 hM hs hf hf' soft hE sigma hsg ht frame 0 zero12 hm (by omega) hz
  obtain ⟨x, hx, hlo⟩ := hloud i m (Nat.zero_le _) (by simpa using hi) h1 h2 h3 hp
  have hmag : Mags c := fun y hy => ⟨(hc.2 y hy).1, isFinite_of_between (lo := 0) (hi := rnd (pow2 50))
    (by decide +kernel) (by decide +kernel) (hc.2 y hy).1 (hc.2 y hy).2⟩
  have hn : EPS < norm2 c := by
    have h1 : EPS < rnd (pow2 (-30)) := by decide +kernel
    rcases le_norm2 hmag hx with h2 | h2
    · exact absurd (F32.lt_of_le_of_lt hlo h2) (by decide +kernel)
    · exact F32.lt_of_lt_of_le h1 (F32.le_trans hlo h2)
  have hu := unit_norm hmag (by rw [hc.1]; norm_num) hn (norm_fin_of_le hc.2)
  have e18 : ((c.length : ℚ) + 6) / 2 ^ 22 = 18 / 2 ^ 22 := by rw [hc.1]; norm_num
  rw [e18] at hu
  have eu : unitOrKeep c = c.map (fun x => x / norm2 c) := if_pos hn
  refine ⟨unitOrKeep c, by unfold frameToChroma; rw [e]; rfl, by rw [length_unitOrKeep]; exact hc.1, ?_⟩
  rw [eu]; exact hu

/-- two sounding bins, 440 Hz and 880 Hz -/
example : frameToChroma toneLibm 3520 8 false 0.5 0 [7, 1, 0.5, nan, 3] =
      frameToChroma toneLibm 3520 8 false 0.5 0 [0, 1, 0.5, 0, 0] ∧
    (∀ m ∈ [7, 1, 0.5, nan, (3 : F32)], m ≠ inf false ∧ toneLibm.powf (F32.max m 0) 0.6 ≤ rnd (pow2 26)) ∧
    rnd (pow2 (-10)) ≤ toneLibm.powf (F32.max 1 0) 0.6 := by decide +kernel

end Verif.Props
