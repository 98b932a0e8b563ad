/-
Chroma vectors: shape, range, silence, unit length (C46, C66).
-/
import Verif.Lemmas.ChromaStep
import Verif.Lemmas.Silence

namespace Verif.Props
open Verif F32 Chroma

/-! ### Shape: whatever the input, twelve entries and no panic -/

theorem addAt_len {c : List F32} (h : c.length = 12) {k : ℕ} (hk : k < 12) (v : F32) :
    ∃ c', addAt c k v = .ok c' ∧ c'.length = 12 := by
  unfold addAt
  rw [if_pos (by omega)]
  exact ⟨_, rfl, by rw [List.length_modify]; exact h⟩

theorem mapStep_len (M : Libm) (soft : Bool) (sigma semi contrib : F32) {c : List F32} (h : c.length = 12) :
    ∃ c', mapStep M soft sigma semi contrib c = .ok c' ∧ c'.length = 12 := by
  unfold mapStep
  cases soft
  · exact addAt_len h (by have := hardClass_range semi; omega) _
  · simp only [if_true]
    unfold softStep
    simp only [List.foldlM_cons, List.foldlM_nil]
    have step : ∀ (off : ℤ) (v : F32) (c : List F32), c.length = 12 →
        ∃ c', addAt c ((primaryClass (remEuclid semi 12) + off) % 12).toNat v = .ok c' ∧ c'.length = 12 := by
      intro off v c hc
      have t0 := Int.emod_nonneg (primaryClass (remEuclid semi 12) + off) (by norm_num : (12 : ℤ) ≠ 0)
      have t1 := Int.emod_lt_of_pos (primaryClass (remEuclid semi 12) + off) (by norm_num : (0 : ℤ) < 12)
      exact addAt_len hc (by omega) v
    obtain ⟨c1, e1, k1⟩ := step (-1) (contrib * softWeight M sigma (remEuclid semi 12)
      ((primaryClass (remEuclid semi 12) + -1) % 12)) c h
    obtain ⟨c2, e2, k2⟩ := step 0 (contrib * softWeight M sigma (remEuclid semi 12)
      ((primaryClass (remEuclid semi 12) + 0) % 12)) c1 k1
    obtain ⟨c3, e3, k3⟩ := step 1 (contrib * softWeight M sigma (remEuclid semi 12)
      ((primaryClass (remEuclid semi 12) + 1) % 12)) c2 k2
    refine ⟨c3, ?_, k3⟩
    rw [e1]; simp only [R.ok_bind]
    rw [e2]; simp only [R.ok_bind]
    rw [e3]; rfl

theorem binLoop_len (M : Libm) (sr fft : ℕ) (soft : Bool) (sigma tuning : F32) :
    ∀ (frame : List F32) (i : ℕ) (c : List F32), c.length = 12 →
      ∃ c', binLoop M sr fft soft sigma tuning i frame c = .ok c' ∧ c'.length = 12 := by
  intro frame
  induction frame with
  | nil => intro i c h; exact ⟨c, rfl, h⟩
  | cons m ms ih =>
    intro i c hc
    unfold binLoop
    simp only
    split_ifs
    · exact ih _ _ hc
    · exact ⟨c, rfl, hc⟩
    · exact ⟨c, rfl, hc⟩
    · obtain ⟨c1, e1, k1⟩ := mapStep_len M soft sigma (semitone M (F32.ofNat i * (F32.ofNat sr / F32.ofNat fft)) tuning)
        (M.powf (F32.max m 0) 0.6) hc
      rw [e1]
      exact ih _ _ k1

/-- one frame: twelve entries, no panic -/
theorem frame_len (M : Libm) (sr fft : ℕ) (soft : Bool) (sigma tuning : F32) (frame : List F32) :
    ∃ c, frameToChroma M sr fft soft sigma tuning frame = .ok c ∧ c.length = 12 := by
  obtain ⟨c, e, h⟩ := binLoop_len M sr fft soft sigma tuning frame 0 zero12 rfl
  refine ⟨unitOrKeep c, ?_, by rw [length_unitOrKeep]; exact h⟩
  unfold frameToChroma
  rw [e]; rfl

theorem mapM_frames (M : Libm) (sr fft : ℕ) (soft : Bool) (sigma tuning : F32) (spec : List (List F32)) :
    ∃ cs, spec.mapM (frameToChroma M sr fft soft sigma tuning) = .ok cs ∧ cs.length = spec.length ∧
      ∀ (t : ℕ) (fr c : List F32), spec[t]? = some fr → cs[t]? = some c →
        frameToChroma M sr fft soft sigma tuning fr = .ok c ∧ c.length = 12 := by
  have hg : ∀ fr, ∃ c, frameToChroma M sr fft soft sigma tuning fr = .ok c ∧ c.length = 12 :=
    frame_len M sr fft soft sigma tuning
  choose g hg1 hg2 using hg
  refine ⟨spec.map g, Silence.mapM_ok (fun x _ => hg1 x), by simp, ?_⟩
  intro t fr c h1 h2
  rw [List.getElem?_map, h1] at h2
  simp only [Option.map_some, Option.some.injEq] at h2
  subst h2
  exact ⟨hg1 _, hg2 _⟩

/-- **C46, shape.** Extracting chroma from a spectrogram answers with one vector of twelve entries and
one energy per frame when the frames are non-empty and of equal length, and with `InvalidInput`
otherwise; it never panics.  No assumption on the values, the tuning, the mapping or the mathematical
library. -/
theorem C46_shape (M : Libm) (sr fft : ℕ) (soft : Bool) (sigma tuning : F32) (spec : List (List F32)) :
    ((∀ fr ∈ spec, fr ≠ []) → (∀ a ∈ spec, ∀ b ∈ spec, a.length = b.length) →
      ∃ cs es, chromaEnergyOfSpec M sr fft soft sigma tuning spec = .ok (cs, es) ∧
        cs.length = spec.length ∧ es.length = spec.length ∧ (∀ c ∈ cs, c.length = 12)) ∧
    (((∃ fr ∈ spec, fr = []) ∨ ∃ a ∈ spec, ∃ b ∈ spec, a.length ≠ b.length) →
      chromaEnergyOfSpec M sr fft soft sigma tuning spec = R.err .invalidInput) := by
  rcases spec with _ | ⟨f, fs⟩
  · exact ⟨fun _ _ => ⟨[], [], rfl, rfl, rfl, by simp⟩, by simp⟩
  constructor
  · intro h1 h2
    obtain ⟨cs, e, hl, hp⟩ := mapM_frames M sr fft soft sigma tuning (f :: fs)
    have hck : checkSpec (f :: fs) = .ok () := by
      unfold checkSpec
      have hf : ((f :: fs).headD []).length ≠ 0 := by
        have := h1 f (by simp)
        simpa using this
      have hr : ragged (f :: fs) = false := by
        unfold ragged
        rw [List.any_eq_false]
        intro x hx
        have := h2 x hx f (by simp)
        simp [this]
      rw [if_neg hf, hr]; rfl
    refine ⟨cs, (f :: fs).map energy, ?_, hl, by simp, ?_⟩
    · unfold chromaEnergyOfSpec
      rw [if_neg (by simp), hck, e]; rfl
    · intro c hc
      obtain ⟨t, ht⟩ := List.mem_iff_getElem?.1 hc
      have htl : t < (f :: fs).length := by
        rw [← hl]; exact (List.getElem?_eq_some_iff.1 ht).1
      exact (hp t _ c (List.getElem?_eq_getElem htl) ht).2
  · intro h
    have hck : checkSpec (f :: fs) = R.err .invalidInput := by
      unfold checkSpec
      by_cases hf : ((f :: fs).headD []).length = 0
      · rw [if_pos hf]
      · rw [if_neg hf]
        have hr : ragged (f :: fs) = true := by
          by_contra hr
          have hr : ragged (f :: fs) = false := by simpa using hr
          unfold ragged at hr
          rw [List.any_eq_false] at hr
          have heq : ∀ x ∈ f :: fs, x.length = f.length := by
            intro x hx
            have := hr x hx
            simpa using this
          rcases h with ⟨x, hx, rfl⟩ | ⟨a, ha, b, hb, hab⟩
          · have := heq [] hx
            exact hf (by simpa using this.symm)
          · exact hab ((heq a ha).trans (heq b hb).symm)
        rw [hr]; rfl
    unfold chromaEnergyOfSpec
    rw [if_neg (by simp), hck]; rfl

/-! ### Range -/

/-- **C46, range (partial).** For a positive transform size, a finite tuning and magnitudes other than
`+∞` (NaN and negative magnitudes included), every entry is a number in `[0, 1]` — exactly, not only up to
rounding.  `Sane M` lists what is asked of `powf`, `exp` and `log2`.  Missing: infinite magnitudes,
non-finite tuning and a zero transform size, where the claim is false (`C46_violated_*`). -/
theorem C46_range_partial (M : Libm) (hM : Sane M) (sr fft : ℕ) (hs : sr ≤ 2 ^ 64) (hf : 0 < fft) (hf' : fft ≤ 2 ^ 64)
    (soft : Bool) (sigma tuning : F32) (ht : tuning.isFinite = true) (frame : List F32)
    (hl : frame.length ≤ 2 ^ 64) (hm : ∀ m ∈ frame, m ≠ inf false) :
    ∃ c, frameToChroma M sr fft soft sigma tuning frame = .ok c ∧ c.length = 12 ∧ ∀ y ∈ c, 0 ≤ y ∧ y ≤ 1 := by
  obtain ⟨c, e, h⟩ := binLoop_acc hM hs hf hf' soft sigma ht frame 0 zero12 hm (by omega) acc_zero
  refine ⟨unitOrKeep c, ?_, by rw [length_unitOrKeep]; exact h.1, unitOrKeep_range (acc_mags h)⟩
  unfold frameToChroma
  rw [e]; rfl

/-! ### Silence -/

theorem modify_zero (k : ℕ) : zero12.modify k (fun x => x + 0) = zero12 := by
  apply List.ext_getElem
  · simp
  · intro i h1 h2
    rw [List.getElem_modify]
    have h00 : (0 : F32) + 0 = 0 := by decide +kernel
    have : zero12[i] = 0 := List.getElem_replicate _
    rw [this, h00]; simp

theorem addAt_zero {k : ℕ} (hk : k < 12) : addAt zero12 k 0 = .ok zero12 := by
  unfold addAt
  rw [if_pos (by simpa [zero12] using hk), modify_zero]

theorem zero_mul_unit {w : F32} (h0 : 0 ≤ w) (h1 : w ≤ 1) : 0 * w = 0 := by
  obtain ⟨v, hv, rfl⟩ := isFinite_iff.1 (isFinite_of_unit h0 h1)
  rw [zero_def, mul_fin, zero_mul, rnd_zero, zero_def]

theorem mapStep_zero {M : Libm} (hM : Sane M) (soft : Bool) (sigma : F32) {semi : F32} (hs : semi.isFinite = true) :
    mapStep M soft sigma semi 0 zero12 = .ok zero12 := by
  unfold mapStep
  cases soft
  · exact addAt_zero (by have := hardClass_range semi; omega)
  · simp only [if_true]
    obtain ⟨v, hv, e, hv0, hv12⟩ := remEuclid_range hs
    unfold softStep
    simp only [e, List.foldlM_cons, List.foldlM_nil]
    have step : ∀ off : ℤ, addAt zero12 ((primaryClass (fin v hv) + off) % 12).toNat
        (0 * softWeight M sigma (fin v hv) ((primaryClass (fin v hv) + off) % 12)) = .ok zero12 := by
      intro off
      have t0 := Int.emod_nonneg (primaryClass (fin v hv) + off) (by norm_num : (12 : ℤ) ≠ 0)
      have t1 := Int.emod_lt_of_pos (primaryClass (fin v hv) + off) (by norm_num : (0 : ℤ) < 12)
      obtain ⟨w0, w1⟩ := softWeight_range hM (sigma := sigma) (hv := hv) hv0 hv12 t0 t1
      rw [zero_mul_unit w0 w1]
      exact addAt_zero (by omega)
    rw [step]; simp only [R.ok_bind]
    rw [step]; simp only [R.ok_bind]
    rw [step]; rfl

theorem binLoop_silent {M : Libm} (hM : Sane M) {sr fft : ℕ} (hs : sr ≤ 2 ^ 64) (hf : 0 < fft) (hf' : fft ≤ 2 ^ 64)
    (soft : Bool) (sigma : F32) {tuning : F32} (ht : tuning.isFinite = true) :
    ∀ (frame : List F32) (i : ℕ), (∀ m ∈ frame, F32.max m 0 = 0) → i + frame.length ≤ 2 ^ 64 →
      binLoop M sr fft soft sigma tuning i frame zero12 = .ok zero12 := by
  intro frame
  induction frame with
  | nil => intro i _ _; rfl
  | cons m ms ih =>
    intro i hm hi
    rw [List.length_cons] at hi
    have ih' := ih (i + 1) (fun x hx => hm x (by simp [hx])) (by omega)
    unfold binLoop
    simp only
    split_ifs with h1 h2 h3
    · exact ih'
    · rfl
    · rfl
    · obtain ⟨f1, f2⟩ := freq_used hs hf hf' (by omega) h1 h2
      rw [hm m (by simp), hM.powf_zero, mapStep_zero hM soft sigma (semitone_finite hM f1 f2 ht)]
      exact ih'

/-- **C46, silence (partial).** A frame without positive magnitudes gives the zero vector.  Missing: the
same exceptions as in `C46_range_partial` (`C46_violated_*`). -/
theorem C46_silent_partial (M : Libm) (hM : Sane M) (sr fft : ℕ) (hs : sr ≤ 2 ^ 64) (hf : 0 < fft) (hf' : fft ≤ 2 ^ 64)
    (soft : Bool) (sigma tuning : F32) (ht : tuning.isFinite = true) (frame : List F32)
    (hl : frame.length ≤ 2 ^ 64) (hm : ∀ m ∈ frame, ¬ 0 < m) :
    frameToChroma M sr fft soft sigma tuning frame = .ok (List.replicate 12 0) := by
  have hm' : ∀ m ∈ frame, F32.max m 0 = 0 := by
    intro m hx
    have := hm m hx
    rcases m with _ | (_ | _) | ⟨v, hv⟩
    · decide +kernel
    · exact absurd (by decide +kernel) this
    · decide +kernel
    · rw [zero_def, fin_lt_fin] at this
      unfold F32.max
      rw [if_neg (by simp [isNaN]), if_neg (by rw [zero_def]; simp [isNaN]), zero_def]
      by_cases hv0 : v < 0
      · rw [if_pos (fin_lt_fin.2 hv0)]
      · rw [if_neg (fun h => hv0 (fin_lt_fin.1 h))]
        have : v = 0 := by linarith
        subst this; rfl
  unfold frameToChroma
  rw [binLoop_silent hM hs hf hf' soft sigma ht frame 0 hm' (by omega)]
  show Except.ok (unitOrKeep zero12) = _
  have : unitOrKeep zero12 = zero12 := by decide +kernel
  rw [this]; rfl

/-- a crude library meeting `Sane`: `x^p` is `x` capped at one, `e^x` is one half, and logarithms are
the sign of `x - 1` -/
def saneLibm : Libm := { Libm.demo with
  powf := fun x _ => F32.min x 1
  exp := fun _ => 0.5
  log2 := fun x => if x < 1 then -1 else if x ≤ 1 then 0 else 1 }

theorem sane_demo : Sane saneLibm where
  powf_range := by
    intro x h0 hf
    show 0 ≤ F32.min x 1 ∧ F32.min x 1 ≤ _
    exact ⟨F32.le_min h0 (by decide +kernel), F32.le_trans (F32.min_le_right (by decide +kernel)) (by decide +kernel)⟩
  powf_zero := by decide +kernel
  exp_range := by intro x _; show 0 ≤ (0.5 : F32) ∧ (0.5 : F32) ≤ 1; decide +kernel
  log2_range := by
    intro x _ _
    show ∃ v hv, (if x < 1 then -1 else if x ≤ 1 then 0 else 1) = fin v hv ∧ |v| ≤ 200
    split_ifs
    · exact ⟨-1, by decide +kernel, by decide +kernel, by norm_num⟩
    · exact ⟨0, by decide +kernel, by decide +kernel, by norm_num⟩
    · exact ⟨1, by decide +kernel, by decide +kernel, by norm_num⟩

/-- bins at 0, 250, 500 and 750 Hz; a NaN and a negative magnitude count as silence -/
example : frameToChroma saneLibm 2000 8 false 0.5 0 [3, 1, nan, -2, 1] = .ok [0, 0, 0, 0, 0, 0, 0, 0, 0, 1, 0, 0] ∧
    frameToChroma saneLibm 2000 8 true 0.5 0.25 [3, 0, nan, -2, 0] = .ok (List.replicate 12 0) ∧
    (∀ m ∈ [3, 1, nan, -2, (1 : F32)], m ≠ inf false) ∧ (∀ m ∈ [0, 0, nan, -2, (0 : F32)], ¬ 0 < m) := by
  decide +kernel

/-- a spectrogram with equal frames and one with unequal frames -/
example : chromaEnergyOfSpec saneLibm 1000 4 false 0.5 0 [[0, 1, 0], [1, 0, 0]] =
      .ok ([[0, 0, 0, 0, 0, 0, 0, 0, 0, 1, 0, 0], List.replicate 12 0], [1, 1]) ∧
    chromaEnergyOfSpec saneLibm 1000 4 false 0.5 0 [[0, 1, 0], [1, 0]] = R.err .invalidInput := by
  decide +kernel

/-! ### Where the claim fails -/

/-- **C46, violated: a zero transform size is accepted and makes every chroma vector NaN**, even for
silence, under soft mapping: the first bin has frequency `0 · ∞`. -/
theorem C46_violated (M : Libm) (hl : M.log2 nan = nan) (he : M.exp nan = nan) (sr : ℕ) (hs0 : 0 < sr)
    (hs : sr ≤ 2 ^ 64) (sigma tuning : F32) (m : F32) (ms : List F32) :
    frameToChroma M sr 0 true sigma tuning (m :: ms) =
      .ok [nan, nan, 0, 0, 0, 0, 0, 0, 0, 0, 0, nan] := by
  have hr : F32.ofNat sr / F32.ofNat 0 = inf false := by
    have h1 := one_le_ofNat hs0
    obtain ⟨x, hx, ex⟩ := isFinite_iff.1 (ofNat_finite (hs.trans (by norm_num : (2 ^ 64 : ℕ) ≤ 2 ^ 127)))
    rw [ex] at h1 ⊢
    rw [one_def, fin_le_fin] at h1
    rw [ofNat_zero, zero_def, div_fin_zero, if_neg (by linarith)]
    have : decide (x < 0) = false := by simp; linarith
    rw [this]
  have h0 : F32.ofNat 0 * inf false = nan := by decide +kernel
  have hn1 : ∀ y : F32, ¬ (nan : F32) < y := fun y h => (ne_nan_left' h) rfl
  have hn2 : ∀ y : F32, ¬ y < (nan : F32) := fun y h => (ne_nan_right' h) rfl
  have hn3 : ∀ y : F32, ¬ y ≤ (nan : F32) := fun y h => (ne_nan_right h) rfl
  have hsemi : semitone M nan tuning = nan := by
    unfold semitone
    have : (nan : F32) / A4 = nan := rfl
    rw [this, hl, show (12 : F32) * nan + SEMI = nan by decide +kernel]; rfl
  have hpc : remEuclid nan 12 = nan := by decide +kernel
  have hw : ∀ t, softWeight M sigma nan t = nan := by
    intro t
    unfold softWeight
    have e1 : ((nan : F32) - F32.ofInt t).abs = nan := rfl
    rw [e1]
    have e2 : F32.min (nan : F32) (12 - nan) = nan := by decide +kernel
    simp only [e2]
    have e3 : ∀ z : F32, -(nan : F32) * nan / z = nan := fun z => rfl
    rw [e3, he]
  have hmul : ∀ x : F32, x * nan = nan := by intro x; rcases x with _ | _ | _ <;> rfl
  have hstep : ∀ v, mapStep M true sigma nan v zero12 =
      .ok [nan, nan, 0, 0, 0, 0, 0, 0, 0, 0, 0, nan] := by
    intro v
    unfold mapStep softStep
    simp only [if_true, hpc, hw, hmul]
    decide +kernel
  have hrest : binLoop M sr 0 true sigma tuning 1 ms [nan, nan, 0, 0, 0, 0, 0, 0, 0, 0, 0, nan] =
      .ok [nan, nan, 0, 0, 0, 0, 0, 0, 0, 0, 0, nan] := by
    rcases ms with _ | ⟨a, as⟩
    · rfl
    · unfold binLoop
      have h1 : F32.ofNat 1 * inf false = inf false := by decide +kernel
      simp only [hr, h1]
      rw [if_neg (by decide +kernel)]
      have : F32.min FMAX (nyquist sr) < inf false := by
        refine F32.lt_of_le_of_lt (F32.min_le_left (by decide +kernel)) (by decide +kernel)
      rw [if_pos this]
  unfold frameToChroma binLoop
  simp only [hr, h0]
  rw [if_neg (hn1 _), if_neg (hn2 _), if_neg (hn3 _), hsemi, hstep]
  simp only [R.ok_bind]
  show (binLoop M sr 0 true sigma tuning (0 + 1) ms _ >>= _) = _
  rw [hrest]
  decide +kernel

/-- the library assumptions of `C46_violated` -/
example : ∃ M : Libm, M.log2 nan = nan ∧ M.exp nan = nan ∧
    frameToChroma M 44100 0 true 0.5 0 [0, 0, 0] = .ok [nan, nan, 0, 0, 0, 0, 0, 0, 0, 0, 0, nan] :=
  ⟨{ saneLibm with log2 := fun x => x, exp := fun x => x }, by decide +kernel, by decide +kernel, by decide +kernel⟩

theorem modify_class (P : List F32 → Prop) [DecidablePred P] (v : F32) (h : ∀ k < 12, P (zero12.modify k (fun x => x + v)))
    (k : ℤ) (h0 : 0 ≤ k) (h1 : k < 12) : P (zero12.modify k.toNat (fun x => x + v)) := h _ (by omega)

/-- **C46, violated: one infinite magnitude gives a NaN entry** (hard mapping; bins at 0, 250 and
500 Hz). -/
theorem C46_violated_infinite (M : Libm) (h : M.powf (inf false) 0.6 = inf false) (sigma tuning : F32) :
    ∃ c, frameToChroma M 1000 4 false sigma tuning [0, inf false, 0] = .ok c ∧ nan ∈ c := by
  have f0 : F32.ofNat 0 * (F32.ofNat 1000 / F32.ofNat 4) < FMIN := by decide +kernel
  have f1 : F32.ofNat 1 * (F32.ofNat 1000 / F32.ofNat 4) = 250 := by decide +kernel
  have f2 : nyquist 1000 ≤ F32.ofNat 2 * (F32.ofNat 1000 / F32.ofNat 4) := by decide +kernel
  have f2' : ¬ F32.min FMAX (nyquist 1000) < F32.ofNat 2 * (F32.ofNat 1000 / F32.ofNat 4) := by decide +kernel
  have f2'' : ¬ F32.ofNat 2 * (F32.ofNat 1000 / F32.ofNat 4) < FMIN := by decide +kernel
  obtain ⟨k0, k1⟩ := hardClass_range (semitone M 250 tuning)
  have hm : F32.max (inf false) 0 = inf false := by decide +kernel
  have e : frameToChroma M 1000 4 false sigma tuning [0, inf false, 0] =
      .ok (unitOrKeep (zero12.modify (hardClass (semitone M 250 tuning)).toNat (fun x => x + inf false))) := by
    unfold frameToChroma
    unfold binLoop
    simp only [if_pos f0]
    unfold binLoop
    simp only [Nat.zero_add, f1]
    rw [if_neg (by decide +kernel), if_neg (by decide +kernel), if_neg (by decide +kernel), hm, h]
    unfold mapStep hardStep addAt
    simp only [Bool.false_eq_true, if_false]
    rw [if_pos (by show _ < 12; omega)]
    simp only [R.ok_bind]
    unfold binLoop
    simp only [if_neg f2'', if_neg f2', if_pos f2]
    rfl
  refine ⟨_, e, ?_⟩
  exact modify_class (fun c => nan ∈ unitOrKeep c) (inf false) (by decide +kernel) _ k0 k1

/-- the library assumption of `C46_violated_infinite` -/
example : { saneLibm with powf := fun x _ => x }.powf (inf false) 0.6 = inf false := rfl

/-- **C46, violated: a NaN tuning makes the chroma of silence NaN** under soft mapping. -/
theorem C46_violated_tuning : ∃ M : Libm, Sane M ∧ M.exp nan = nan ∧
    frameToChroma M 1000 4 true 0.5 nan [0, 0, 0] = .ok [nan, nan, 0, 0, 0, 0, 0, 0, 0, 0, 0, nan] := by
  refine ⟨{ saneLibm with exp := fun x => if x ≤ 0 then 0.5 else x }, ?_, by decide +kernel, by decide +kernel⟩
  exact { powf_range := sane_demo.powf_range, powf_zero := sane_demo.powf_zero, log2_range := sane_demo.log2_range,
          exp_range := by
            intro x hx
            show 0 ≤ (if x ≤ 0 then 0.5 else x) ∧ (if x ≤ 0 then 0.5 else x) ≤ 1
            rw [if_pos hx]; decide +kernel }

/-! ### Unit length -/

/-- exact sum of squares -/
def exactSq (c : List F32) : ℚ := (c.map (fun x => x.val * x.val)).sum

theorem div_inf_zero {c : List F32} (h : Mags c) : c.map (fun x => x / inf false) = List.replicate c.length 0 := by
  rw [List.eq_replicate_iff]
  refine ⟨by simp, fun y hy => ?_⟩
  obtain ⟨x, hx, rfl⟩ := List.mem_map.1 hy
  obtain ⟨v, hv, rfl⟩ := isFinite_iff.1 (h x hx).2
  exact fin_div_inf

/-- **C66 (partial).** A chroma vector either has unit Euclidean length up to `18 / 2^22`, or its
computed norm is at most `1e-10`.  Missing: that audible frames are never of the second kind, refuted by
`C66_violated`. -/
theorem C66_unit_partial (M : Libm) (hM : Sane M) (sr fft : ℕ) (hs : sr ≤ 2 ^ 64) (hf : 0 < fft) (hf' : fft ≤ 2 ^ 64)
    (soft : Bool) (sigma tuning : F32) (ht : tuning.isFinite = true) (frame : List F32)
    (hl : frame.length ≤ 2 ^ 64) (hm : ∀ m ∈ frame, m ≠ inf false) :
    ∃ c, frameToChroma M sr fft soft sigma tuning frame = .ok c ∧
      (|exactSq c - 1| ≤ 18 / 2 ^ 22 ∨ F32.sqrt (F32.sum (c.map (fun x => x * x))) ≤ 1e-10) := by
  obtain ⟨c, e, h⟩ := binLoop_acc hM hs hf hf' soft sigma ht frame 0 zero12 hm (by omega) acc_zero
  refine ⟨unitOrKeep c, by unfold frameToChroma; rw [e]; rfl, ?_⟩
  have hmag := acc_mags h
  have hnn := norm2_nonneg hmag
  by_cases hn : EPS < norm2 c
  · have eu : unitOrKeep c = c.map (fun x => x / norm2 c) := if_pos hn
    rw [eu]
    rcases nonneg_cases hnn with hi | ⟨v, hv, ev, _⟩
    · right
      rw [hi, div_inf_zero hmag, h.1]
      decide +kernel
    · left
      have hfin : (norm2 c).isFinite = true := by rw [ev]; rfl
      have := unit_norm hmag (by rw [h.1]; norm_num) hn hfin
      rw [h.1] at this
      have e18 : (((12 : ℕ) : ℚ) + 6) / 2 ^ 22 = 18 / 2 ^ 22 := by norm_num
      rw [e18] at this
      exact this
  · right
    have eu : unitOrKeep c = c := if_neg hn
    rw [eu]
    exact F32.le_of_not_lt (ne_nan_right hnn) (by decide +kernel) hn

/-- **C66, violated: a very loud frame gives the zero vector.** With `x^0.6` of the loudest bin beyond
`2^64` the sum of squares overflows and every entry is divided by infinity. -/
theorem C66_violated (M : Libm) (h1 : rnd (pow2 71) ≤ M.powf (rnd (pow2 120)) 0.6)
    (h2 : M.powf (rnd (pow2 120)) 0.6 ≤ rnd (pow2 73)) (sigma tuning : F32) :
    frameToChroma M 1000 4 false sigma tuning [0, rnd (pow2 120), 0] = .ok (List.replicate 12 0) := by
  have f0 : F32.ofNat 0 * (F32.ofNat 1000 / F32.ofNat 4) < FMIN := by decide +kernel
  have f1 : F32.ofNat 1 * (F32.ofNat 1000 / F32.ofNat 4) = 250 := by decide +kernel
  have f2 : nyquist 1000 ≤ F32.ofNat 2 * (F32.ofNat 1000 / F32.ofNat 4) := by decide +kernel
  have f2' : ¬ F32.min FMAX (nyquist 1000) < F32.ofNat 2 * (F32.ofNat 1000 / F32.ofNat 4) := by decide +kernel
  have f2'' : ¬ F32.ofNat 2 * (F32.ofNat 1000 / F32.ofNat 4) < FMIN := by decide +kernel
  obtain ⟨k0, k1⟩ := hardClass_range (semitone M 250 tuning)
  have hm : F32.max (rnd (pow2 120)) 0 = rnd (pow2 120) := by decide +kernel
  generalize hp : M.powf (rnd (pow2 120)) 0.6 = p at *
  have e : frameToChroma M 1000 4 false sigma tuning [0, rnd (pow2 120), 0] =
      .ok (unitOrKeep (zero12.modify (hardClass (semitone M 250 tuning)).toNat (fun x => x + p))) := by
    unfold frameToChroma
    unfold binLoop
    simp only [if_pos f0]
    unfold binLoop
    simp only [Nat.zero_add, f1]
    rw [if_neg (by decide +kernel), if_neg (by decide +kernel), if_neg (by decide +kernel), hm, ← hp]
    unfold mapStep hardStep addAt
    simp only [Bool.false_eq_true, if_false]
    rw [if_pos (by show _ < 12; omega)]
    simp only [R.ok_bind]
    unfold binLoop
    simp only [if_neg f2'', if_neg f2', if_pos f2]
    rfl
  rw [e]
  obtain ⟨g1, e1⟩ : ∃ h, rnd (pow2 71) = fin (pow2 71) h := ⟨by decide +kernel, by decide +kernel⟩
  obtain ⟨g3, e3⟩ : ∃ h, rnd (pow2 73) = fin (pow2 73) h := ⟨by decide +kernel, by decide +kernel⟩
  clear e hp
  rw [e1] at h1; rw [e3] at h2
  obtain ⟨v, hv, rfl, v1, v2⟩ := between_cases h1 h2
  have v0 : 0 ≤ v := (pow2_pos 71).le.trans v1
  generalize hk : (hardClass (semitone M 250 tuning)).toNat = k
  have hk12 : k < 12 := by omega
  set c := zero12.modify k (fun x => x + fin v hv) with hc
  have hcl : c.length = 12 := by rw [hc, List.length_modify]; rfl
  have hadd : (0 : F32) + fin v hv = fin v hv := by rw [zero_def, add_fin, zero_add, rnd_val hv]
  have hmem : ∀ y ∈ c, y = 0 ∨ y = fin v hv := by
    intro y hy
    rcases mem_modify hy with hy | ⟨x, hx, rfl⟩
    · exact Or.inl (List.eq_of_mem_replicate hy)
    · rw [List.eq_of_mem_replicate hx, hadd]; exact Or.inr rfl
  have hmag : Mags c := by
    intro y hy
    rcases hmem y hy with rfl | rfl
    · decide +kernel
    · exact ⟨by rw [zero_def, fin_le_fin]; exact v0, rfl⟩
  have hin : fin v hv ∈ c := by
    have : c[k]? = some (fin v hv) := by
      rw [hc, List.getElem?_modify_eq]
      have : zero12[k]? = some 0 := by
        rw [List.getElem?_eq_getElem (by exact hk12)]
        congr 1; exact List.getElem_replicate _
      rw [this]
      show some ((0 : F32) + fin v hv) = _
      rw [hadd]
    exact List.mem_of_getElem? this
  have hsq : fin v hv * fin v hv = inf false := by
    have : rnd (pow2 128) ≤ fin v hv * fin v hv := by
      rw [mul_fin]
      apply rnd_mono
      have h3 : pow2 128 ≤ pow2 71 * pow2 71 := by decide +kernel
      exact h3.trans (_root_.mul_le_mul v1 v1 (pow2_pos 71).le v0)
    have h4 : rnd (pow2 128) = inf false := by decide +kernel
    rw [h4] at this
    rcases hx : fin v hv * fin v hv with _ | (_ | _) | ⟨w, hw⟩ <;> rw [hx] at this <;> simp_all [le_def, toW]
  have hsum : inf false ≤ F32.sum (c.map (fun x => x * x)) :=
    le_sum (sqs_nonneg hmag) (List.mem_map.2 ⟨_, hin, hsq⟩)
  have hn : norm2 c = inf false := by
    unfold norm2
    rcases hx : F32.sum (c.map (fun x => x * x)) with _ | (_ | _) | ⟨w, hw⟩ <;> rw [hx] at hsum <;>
      simp_all [le_def, toW, F32.sqrt]
  have hu : unitOrKeep c = List.replicate 12 0 := by
    have : unitOrKeep c = c.map (fun x => x / norm2 c) := if_pos (by rw [hn]; decide +kernel)
    rw [this, hn, div_inf_zero hmag, hcl]
  rw [hu]

/-- a library with `(2^120)^0.6 = 2^72`, as it should be -/
example : ∃ M : Libm, rnd (pow2 71) ≤ M.powf (rnd (pow2 120)) 0.6 ∧ M.powf (rnd (pow2 120)) 0.6 ≤ rnd (pow2 73) ∧
    frameToChroma M 1000 4 false 0.5 0 [0, rnd (pow2 120), 0] = .ok (List.replicate 12 0) :=
  ⟨{ saneLibm with powf := fun _ _ => rnd (pow2 72) }, by decide +kernel, by decide +kernel, by decide +kernel⟩

end Verif.Props
