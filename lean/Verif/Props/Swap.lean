/-
Property theorems C106: swapping the stereo channels (src/preprocessing/channel_mixer.rs).
-/
import Verif.Model.ChannelMixer
import Verif.F32.More

namespace Verif.Props
open Verif Verif.Mixer

theorem zip_map_swap {f g : F32 → F32 → F32} : ∀ {l r : List F32}, (∀ p ∈ l.zip r, f p.1 p.2 = g p.2 p.1) →
    (l.zip r).map (fun p => f p.1 p.2) = (r.zip l).map (fun p => g p.1 p.2)
  | [], r, _ => by cases r <;> rfl
  | _ :: _, [], _ => rfl
  | a :: l, b :: r, h => by
    simp only [List.zip_cons_cons, List.map_cons]
    rw [h (a, b) (by simp), zip_map_swap (fun p hp => h p (by simp [hp]))]

theorem stereo_swap {l r : List F32} {mode : Mode} (h : ∀ p ∈ l.zip r, mixOne mode p.1 p.2 = mixOne mode p.2 p.1) :
    stereoToMono r l mode = stereoToMono l r mode := by
  unfold stereoToMono
  by_cases hl : l.length = r.length
  · rw [if_neg (not_not.2 hl.symm), if_neg (not_not.2 hl)]
    by_cases h0 : l = []
    · subst h0
      have : r = [] := List.length_eq_zero_iff.1 hl.symm
      subst this; rfl
    · have hr : r ≠ [] := by rintro rfl; exact h0 (List.length_eq_zero_iff.1 hl)
      rw [if_neg hr, if_neg h0, zip_map_swap h]
  · rw [if_pos (Ne.symm hl), if_pos hl]

/-- **C106 (averaging modes).** In the Mono, MidSide and Center modes the mono mix does not depend on which channel is
called left, for every pair of channels (also of different lengths, and whatever the samples). -/
theorem C106_average (l r : List F32) (mode : Mode) (hm : mode ≠ .dominant) :
    stereoToMono r l mode = stereoToMono l r mode := by
  refine stereo_swap fun p _ => ?_
  cases mode <;> first | exact absurd rfl hm | (show (_ + _) * _ = (_ + _) * _; rw [F32.add_comm])

/-- **C106 (Dominant mode, partial).** Full claim: swapping the channels never changes the mix.  In Dominant mode this
is proved for channels without NaN samples in which no two simultaneous samples are each other's negatives (except
zeros).  What is missing is false, see `C106_violated`. -/
theorem C106_dominant_partial (l r : List F32)
    (h : ∀ p ∈ l.zip r, p.1 ≠ F32.nan ∧ p.2 ≠ F32.nan ∧ (p.1 = -p.2 → p.1 = p.2)) :
    stereoToMono r l .dominant = stereoToMono l r .dominant := by
  refine stereo_swap fun p hp => ?_
  obtain ⟨x, y⟩ := p
  obtain ⟨h1, h2, h3⟩ := h _ hp
  dsimp only at h1 h2 h3 ⊢
  show (if y.abs ≤ x.abs then x else y) = (if x.abs ≤ y.abs then y else x)
  by_cases hxy : y.abs ≤ x.abs
  · by_cases hyx : x.abs ≤ y.abs
    · rw [if_pos hxy, if_pos hyx]
      cases x with
      | nan => exact absurd rfl h1
      | inf s =>
        cases y with
        | nan => exact absurd rfl h2
        | inf t =>
          by_cases hst : s = t
          · rw [hst]
          · exact h3 (by cases s <;> cases t <;> first | rfl | exact absurd rfl hst)
        | fin v hv => simp [F32.abs] at hyx
      | fin u hu =>
        cases y with
        | nan => exact absurd rfl h2
        | inf t => simp [F32.abs] at hxy
        | fin v hv =>
          rw [F32.abs_fin, F32.abs_fin, F32.fin_le_fin] at hxy hyx
          rcases abs_eq_abs.1 (le_antisymm hyx hxy) with h | h
          · subst h; rfl
          · subst h; exact h3 rfl
    · rw [if_pos hxy, if_neg hyx]
  · have hyx : x.abs ≤ y.abs := (F32.le_total (F32.abs_ne_nan h1) (F32.abs_ne_nan h2)).resolve_right hxy
    rw [if_neg hxy, if_pos hyx]

/-- **C106 is violated by the code**: out-of-phase samples of equal magnitude.  The Dominant mix of a recording whose
channels are each other's negatives is the left channel, whichever that is. -/
theorem C106_violated : stereoToMono [1] [-1] .dominant = .ok [1] ∧ stereoToMono [-1] [1] .dominant = .ok [-1] := by
  decide +kernel

/-! Non-vacuity: a stereo pair meeting the hypothesis of `C106_dominant_partial`, with both channels chosen. -/
example : (∀ p ∈ ([1, 0.25, 0.5] : List F32).zip [0.5, -0.5, 0.5],
      p.1 ≠ F32.nan ∧ p.2 ≠ F32.nan ∧ (p.1 = -p.2 → p.1 = p.2)) ∧
    stereoToMono [1, 0.25, 0.5] [0.5, -0.5, 0.5] .dominant = .ok [1, -0.5, 0.5] := by
  decide +kernel

end Verif.Props
