/-
C32 (the decoded tempo path has no influence: refuted) and C33 (beats lie on the onset lattice).
-/
import Verif.Lemmas.Beat

namespace Verif.Props
open Verif Verif.Beat F32

/-- `d` is the distance from `t` to the closest onset, `+inf` when no distance is a number below it. -/
def Closest (onsets : List F32) (t d : F32) : Prop :=
  0 ≤ d ∧ (d = inf false ∨ ∃ o ∈ onsets, d = (o - t).abs) ∧ ∀ o ∈ onsets, (o - t).abs ≠ nan → d ≤ (o - t).abs

/-- **C33**: every beat of the tracker lies on the nominal lattice `first + t * (60 / bpm)`, is supported by an
onset (emission above 0.1 for the closest onset distance), has a confidence in [0,1], the list is sorted, and no
supported lattice point up to the last onset is left out. -/
theorem C33_beats_on_lattice (M : Libm) (bpm : F32) (onsets : List F32) (beats : List BeatPos)
    (h : trackBeats M bpm onsets = .ok beats) :
    ∃ first last n, onsets.head? = some first ∧ onsets.getLast? = some last ∧
      n = (F32.ceil ((last - first) / (60 / bpm))).toUsize + 1 ∧
      beats.Pairwise (fun a b => a.time ≤ b.time) ∧ beats.length ≤ n ∧
      (∀ b ∈ beats, 0 ≤ b.conf ∧ b.conf ≤ 1 ∧ ∃ t < n, b.time = first + F32.ofNat t * (60 / bpm) ∧
        ∃ d, Closest onsets b.time d ∧ 0.1 < M.exp (-(d * d) / (2 * (0.05 / 2 * (0.05 / 2))))) ∧
      (∀ t < n, ∀ d, Closest onsets (first + F32.ofNat t * (60 / bpm)) d →
        0.1 < M.exp (-(d * d) / (2 * (0.05 / 2 * (0.05 / 2)))) →
        ∃ b ∈ beats, b.time = first + F32.ofNat t * (60 / bpm)) := by
  have hb : ¬ (bpm ≤ EPS ∨ 300 < bpm) := by
    intro hc; unfold trackBeats at h; rw [if_pos hc] at h; simp at h
  have hne : onsets ≠ [] := by
    rintro rfl; unfold trackBeats at h; rw [if_neg hb] at h; simp at h
  obtain ⟨first, hf⟩ : ∃ a, onsets.head? = some a := by
    cases onsets with
    | nil => exact absurd rfl hne
    | cons a l => exact ⟨a, rfl⟩
  obtain ⟨last, hl⟩ : ∃ a, onsets.getLast? = some a := ⟨_, List.getLast?_eq_some_getLast hne⟩
  rw [trackBeats_eq hb hf hl] at h
  cases hn : numFrames bpm first last with
  | error e => rw [hn] at h; simp [Except.bind] at h
  | ok n =>
    rw [hn] at h
    change sortAscP BeatPos.time (lattice M bpm first onsets n) = .ok beats at h
    obtain ⟨_, hperm, hsort⟩ := sortAscP_ok h
    have hn' : n = (F32.ceil ((last - first) / (60 / bpm))).toUsize + 1 := by
      unfold numFrames at hn
      dsimp only at hn
      split_ifs at hn
      exact (Except.ok.inj hn).symm
    have huniq : ∀ t d, Closest onsets t d → d = minDist onsets t := by
      rintro t d ⟨h1, h2, h3⟩
      obtain ⟨m1, m2, m3⟩ := minDist_spec onsets t
      have hle : ∀ x y : F32, 0 ≤ x → 0 ≤ y → (y = inf false ∨ ∃ o ∈ onsets, y = (o - t).abs) →
          (∀ o ∈ onsets, (o - t).abs ≠ nan → x ≤ (o - t).abs) → x ≤ y := by
        intro x y hx hy hy2 hx3
        rcases hy2 with rfl | ⟨o, ho, rfl⟩
        · rcases nonneg_cases hx with rfl | ⟨v, hv, rfl, _⟩
          · decide +kernel
          · rw [le_def]; simp [toW]
        · exact hx3 o ho (ne_nan_right hy)
      exact le_antisymm (hle _ _ h1 m1 m2 h3) (hle _ _ m1 h1 h2 m3)
    refine ⟨first, last, n, hf, hl, hn', hsort, ?_, ?_, ?_⟩
    · rw [hperm.length_eq]
      unfold lattice
      exact _root_.le_trans (List.length_filterMap_le _ _) (by simp)
    · intro b hb
      obtain ⟨t, ht, he, hbt⟩ := mem_lattice.1 (hperm.mem_iff.1 hb)
      obtain ⟨c1, c2, c3⟩ := beatAt_conf hbt
      refine ⟨c2, c3, t, ht, c1, minDist onsets b.time, minDist_spec _ _, ?_⟩
      rw [c1]; exact he
    · intro t ht d hd he
      rw [huniq _ _ hd] at he
      have he' : 0.1 < emission M onsets (frameTime bpm first t) := he
      have : ∃ b, beatAt bpm first onsets (emission M onsets (frameTime bpm first t)) t = some b ∧
          b.time = frameTime bpm first t := by
        unfold beatAt; rw [if_pos he']; exact ⟨_, rfl, rfl⟩
      obtain ⟨b, hb, hbt⟩ := this
      exact ⟨b, hperm.mem_iff.2 (mem_lattice.2 ⟨t, ht, he', hb⟩), hbt⟩

/-- **C33**, nearness: with an `exp` that is at most 0.1 below -2.3125 every beat is within 54 ms of an onset. -/
theorem C33_beats_near_onsets (M : Libm) (hM : ExpSmall M) (bpm : F32) (onsets : List F32) (beats : List BeatPos)
    (h : trackBeats M bpm onsets = .ok beats) (b : BeatPos) (hb : b ∈ beats) :
    ∃ o ∈ onsets, (o - b.time).abs ≤ 0.054 := by
  obtain ⟨first, last, n, hf, hl, _, _, _, hmem, _⟩ := C33_beats_on_lattice M bpm onsets beats h
  obtain ⟨_, _, t, _, ht, d, hd, he⟩ := hmem b hb
  have h2 : ¬ (0.054 : F32) < d := fun hlt => hM _ (emission_arg_le hlt) he
  have h3 := le_of_not_lt (ne_nan_right hd.1) (by decide +kernel) h2
  rcases hd.2.1 with rfl | ⟨o, ho, rfl⟩
  · exact absurd h3 (by decide +kernel)
  · exact ⟨o, ho, h3⟩

/-- non-vacuity: the demonstration `exp` is admissible; a call that succeeds with beats on and off onsets -/
example : ExpSmall Libm.demo := by
  intro x hx
  have h2 : x < -2 := lt_of_le_of_lt hx (by decide +kernel)
  have h0 : x ≤ 0 := le_of_lt (lt_of_lt_of_le h2 (by decide +kernel))
  show ¬ _ < (if x ≤ 0 then (if x < -2 then (0 : F32) else 0.5) else 1)
  rw [if_pos h0, if_pos h2]
  decide +kernel
example : (match trackBeats Libm.demo 60 [0, 1.03, 2, 4, 4.5] with
    | .ok bs => bs.map (·.time) | .error _ => []) = [0, 1, 2, 4] := by decide +kernel

/-- **C32 violated**, for every input: whatever state sequence is decoded, the extracted beats are the same, so the
tempo path never influences the reported beat positions. -/
theorem C32_violated (M : Libm) (bpm : F32) (onsets : List F32) (em : List (List F32))
    (hem : emissionMatrix M bpm onsets (stateBpms bpm) = .ok em) (path path' : List ℕ)
    (h : path.length = em.length ∧ ∀ s ∈ path, s < NS) (h' : path'.length = em.length ∧ ∀ s ∈ path', s < NS) :
    extractBeats bpm onsets path em = extractBeats bpm onsets path' em := by
  have hne : onsets ≠ [] := by rintro rfl; simp [emissionMatrix] at hem
  obtain ⟨first, hf⟩ : ∃ a, onsets.head? = some a := by
    cases onsets with
    | nil => exact absurd rfl hne
    | cons a l => exact ⟨a, rfl⟩
  obtain ⟨last, hl⟩ : ∃ a, onsets.getLast? = some a := ⟨_, List.getLast?_eq_some_getLast hne⟩
  rw [emissionMatrix_eq hf hl] at hem
  cases hn : numFrames bpm first last with
  | error e => rw [hn] at hem; simp [Except.map] at hem
  | ok n =>
    rw [hn] at hem
    have e := (Except.ok.inj hem).symm
    have hlen : em.length = n := by rw [e]; simp
    rw [extract_eq (M := M) (by simp [stateBpms, NS]) hf e (numFrames_pos hn) (h.1.trans hlen) h.2,
      extract_eq (M := M) (by simp [stateBpms, NS]) hf e (numFrames_pos hn) (h'.1.trans hlen) h'.2]

/-- non-vacuity: a call with an emission matrix, and two different paths for it -/
example : (match emissionMatrix Libm.demo 60 [0, 1, 2] (stateBpms 60) with
      | .ok em => em.length | .error _ => 0) = 3 ∧ ([0, 1, 2] : List ℕ) ≠ [4, 4, 4] := by decide +kernel

end Verif.Props
