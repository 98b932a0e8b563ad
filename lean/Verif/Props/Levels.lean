/-
Property theorems C136: the levels in the normalisation metadata (src/preprocessing/normalization.rs lines 62-73 and 262-547).
-/
import Verif.Props.Normalization

namespace Verif.Props
open Verif Verif.Norm Verif.F32

/-! ### Specification -/

/-- `p` is the largest absolute sample value -/
def IsPeakOf (l : List F32) (p : F32) : Prop := (∃ x ∈ l, x.abs = p) ∧ ∀ x ∈ l, x.abs ≤ p

/-- root of the mean of the squares -/
def rmsValue (l : List F32) : F32 := F32.sqrt (F32.sum (l.map (fun x => x * x)) / F32.ofNat l.length)

/-- `d` is the level of the amplitude `x` in dB: minus infinity up to 1e-10, and `20 log10 x` above -/
def IsLevel (M : Libm) (x d : F32) : Prop := (x ≤ 1e-10 → d = inf true) ∧ ((1e-10 : F32) < x → d = 20 * M.log10 x)

/-! ### Proofs -/

theorem isPeakOf_peakOf {l : List F32} {p : F32} (h : IsPeakOf l p) : peakOf l = p := by
  obtain ⟨⟨x, hx, rfl⟩, h2⟩ := h
  have hs := peakOf_spec l
  refine F32.le_antisymm ?_ ?_
  · rcases hs.2.2 with h | ⟨y, hy, h⟩
    · rw [h]; exact F32.abs_nonneg (by rintro rfl; exact absurd (h2 _ hx) (by decide +kernel))
    · rw [h]; exact h2 y hy
  · exact hs.2.1 x hx (by rintro h; have := h2 x hx; rw [h] at this; exact absurd this (by decide +kernel))

theorem rmsDb_level (M : Libm) (l : List F32) : IsLevel M (rmsValue l) (rmsDbOf M l) := by
  unfold IsLevel rmsDbOf
  change (rmsValue l ≤ EPS → (if EPS < rmsValue l then 20 * M.log10 (rmsValue l) else negInf) = _) ∧
    (EPS < rmsValue l → (if EPS < rmsValue l then 20 * M.log10 (rmsValue l) else negInf) = _)
  exact ⟨fun h => by rw [if_neg (F32.not_lt_of_le h)]; rfl, fun h => by rw [if_pos h]⟩

/-- **C136 (what the metadata say).** The loudness is the one measured on the input; the peak level is that of the input,
provided the input is loud enough for the chosen method to be applied at all; with the RMS method the RMS level is that of the
input too. -/
theorem C136_levels_partial (M : Libm) (samples : List F32) (c : Config) (sr : F32) (out : List F32) (m : Meta)
    (h : normalize M samples c sr = .ok (out, m)) :
    (∀ v, m.lufs = some v → c.method = .loudness ∧ calculateLufs M samples sr = .ok v) ∧
    (∀ p, IsPeakOf samples p → (1e-10 : F32) < p → (c.method = .rms → (1e-10 : F32) < rmsValue samples) →
      m.peakDb = 20 * M.log10 p) ∧
    (c.method = .rms → IsLevel M (rmsValue samples) m.rmsDb) := by
  have hpk : ∀ {hd : F32}, normalizePeak M samples hd = .ok (out, m) → m.lufs = none ∧
      ∀ p, IsPeakOf samples p → (1e-10 : F32) < p → m.peakDb = 20 * M.log10 p := by
    intro hd h
    simp only [normalizePeak] at h
    split_ifs at h with h0 hp <;> simp only [Except.ok.injEq, Prod.mk.injEq] at h
    · obtain ⟨rfl, rfl⟩ := h
      refine ⟨rfl, fun p h1 h2 => ?_⟩
      rw [isPeakOf_peakOf h1] at hp
      exact absurd h2 (F32.not_lt_of_le hp)
    · obtain ⟨rfl, rfl⟩ := h
      exact ⟨rfl, fun p h1 _ => by rw [isPeakOf_peakOf h1]⟩
  unfold normalize at h
  cases hm : c.method with
  | peak =>
    rw [hm] at h
    obtain ⟨h1, h2⟩ := hpk h
    exact ⟨fun v hv => (by rw [h1] at hv; cases hv), fun p hp hpp _ => h2 p hp hpp, fun h => by cases h⟩
  | rms =>
    rw [hm] at h
    simp only [normalizeRms] at h
    split_ifs at h with h0 hr hn <;> simp only [Except.ok.injEq, Prod.mk.injEq] at h <;> obtain ⟨rfl, rfl⟩ := h
    · refine ⟨fun v hv => (by cases hv), fun p _ _ h3 => absurd (h3 rfl) (F32.not_lt_of_le hr), fun _ => ⟨fun _ => rfl, fun h => ?_⟩⟩
      exact absurd h (F32.not_lt_of_le hr)
    all_goals
      exact ⟨fun v hv => (by cases hv), fun p h1 _ _ => (by rw [isPeakOf_peakOf h1]), fun _ => ⟨fun h => absurd h hr, fun _ => rfl⟩⟩
  | loudness =>
    rw [hm] at h
    simp only [normalizeLufs] at h
    split_ifs at h with h0
    obtain ⟨v, hv, h⟩ := R.bind_eq_ok.1 h
    split_ifs at h with h1 h2
    · obtain ⟨h3, h4⟩ := hpk h
      exact ⟨fun v hv => (by rw [h3] at hv; cases hv), fun p hp hpp _ => h4 p hp hpp, fun h => by cases h⟩
    all_goals
      cases h
      exact ⟨fun w hw => ⟨rfl, (by cases hw; exact hv)⟩, fun p h1 _ _ => (by rw [isPeakOf_peakOf h1]), fun h => by cases h⟩

/-- **C136 is violated: the RMS level of the peak and loudness methods.** The metadata promise the RMS level before
normalisation, but whenever one of these methods changes the signal the level reported is that of the result. -/
theorem C136_violated (M : Libm) (samples : List F32) (c : Config) (sr : F32) (out : List F32) (m : Meta)
    (hc : c.method ≠ .rms) (h : normalize M samples c sr = .ok (out, m)) (hd : out ≠ samples) :
    IsLevel M (rmsValue out) m.rmsDb := by
  have hpk : ∀ {hd : F32}, normalizePeak M samples hd = .ok (out, m) → IsLevel M (rmsValue out) m.rmsDb := by
    intro hd h
    simp only [normalizePeak] at h
    split_ifs at h with h0 hp <;> simp only [Except.ok.injEq, Prod.mk.injEq] at h <;> obtain ⟨rfl, rfl⟩ := h
    · contradiction
    · exact rmsDb_level M _
  unfold normalize at h
  cases hm : c.method with
  | peak => rw [hm] at h; exact hpk h
  | rms => exact absurd hm hc
  | loudness =>
    rw [hm] at h
    simp only [normalizeLufs] at h
    split_ifs at h with h0
    obtain ⟨v, hv, h⟩ := R.bind_eq_ok.1 h
    split_ifs at h with h1 h2
    · exact hpk h
    all_goals
      cases h
      exact rmsDb_level M _

/-- a concrete case: a signal of RMS one half is brought to full scale, and the RMS level reported is that of full scale -/
theorem C136_violated_rms (M : Libm) (c : Config) (sr : F32) (hc : c.method = .peak)
    (hT : M.powf 10 ((0 - c.headroomDb) / 20) = 1) :
    rmsValue [1 / 2, -(1 / 2)] = 1 / 2 ∧
    ∃ m, normalize M [1 / 2, -(1 / 2)] c sr = .ok ([1, -1], m) ∧ m.rmsDb = 20 * M.log10 1 := by
  refine ⟨by decide +kernel, ⟨none, 20 * M.log10 (1 / 2), 20 * M.log10 1, 20 * M.log10 2⟩, ?_, rfl⟩
  have hpk : peakOf [1 / 2, -(1 / 2)] = 1 / 2 := by decide +kernel
  have h1 : ¬ (1 / 2 : F32) ≤ EPS := by decide +kernel
  have h2 : (1 : F32) / (1 / 2) = 2 := by decide +kernel
  have h3 : ([1 / 2, -(1 / 2)] : List F32).map (· * F32.min 2 2) = [1, -1] := by decide +kernel
  have h4 : rmsDbOf M [1, -1] = 20 * M.log10 1 := by
    have h5 : F32.sqrt (meanSq [1, -1]) = 1 := by decide +kernel
    have h6 : EPS < 1 := by decide +kernel
    simp only [rmsDbOf, h5, if_pos h6]
  unfold normalize
  rw [hc]
  simp only [normalizePeak, hpk, if_neg h1, hT, h2, h3, h4]
  rfl

/-- **C136 is violated: the peak level of a quiet signal.** With the RMS method a signal whose RMS is at most 1e-10 is reported
with peak level minus infinity, whatever its peak is. -/
theorem C136_violated_peak (M : Libm) (samples : List F32) (c : Config) (sr : F32) (hc : c.method = .rms) (h0 : samples ≠ [])
    (hr : rmsValue samples ≤ 1e-10) : ∃ m, normalize M samples c sr = .ok (samples, m) ∧ m.peakDb = inf true := by
  refine ⟨⟨none, negInf, negInf, 0⟩, ?_, rfl⟩
  unfold normalize
  rw [hc]
  have hr' : F32.sqrt (meanSq samples) ≤ EPS := hr
  simp only [normalizeRms, if_neg h0, if_pos hr']

/-! ### Witnesses -/

/-- a signal with peak 1/2 and RMS 1/2 -/
example : IsPeakOf [1 / 2, -(1 / 2)] (1 / 2) ∧ (1e-10 : F32) < rmsValue [1 / 2, -(1 / 2)] ∧ ([1, -1] : List F32) ≠ [1 / 2, -(1 / 2)] := by
  unfold IsPeakOf
  decide +kernel

/-- the square of a very quiet click is no `f32`: the peak is 1e-23, about 460 dB below full scale, and the RMS zero -/
example : rmsValue [1e-23, 0] ≤ 1e-10 ∧ IsPeakOf [1e-23, 0] 1e-23 := by
  unfold IsPeakOf
  decide +kernel

/-- a click of 2e-10, above the threshold 1e-10 of the peak measurement, among sixteen samples -/
example : rmsValue (2e-10 :: List.replicate 15 0) ≤ 1e-10 ∧ (1e-10 : F32) < 2e-10 := by decide +kernel

end Verif.Props
