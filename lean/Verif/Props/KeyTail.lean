/-
Property theorems C140: which part of a track the key-change analysis hears (src/features/key/key_changes.rs,
`detect_key_changes`).
-/
import Verif.Props.KeyChanges

namespace Verif.Props
open Verif Verif.Keys Verif.KeyDet F32

/-- **C140 (partial).** Every frame that has a whole step (segment length less overlap) of frames behind it lies in a segment
whose detected key is part of the result.  Missing: the frames after the last full segment (`C140_violated`) and tracks shorter
than one segment (`C140_violated_short`). -/
theorem C140_heard_partial (ord : List (Key × F32) → List (Key × F32)) (ordC : List (Key × ℕ × F32) → List (Key × ℕ × F32))
    (hordC : ∀ l, (ordC l).Perm l) (chroma : List (List F32)) (hn : chroma.length < 2 ^ 64) (sr hop : ℕ) (T : Templates)
    (dur overlap : F32) (c : Changes) (h : keyChanges ord ordC chroma sr hop T dur overlap = .ok c)
    (fps : F32) (hf : fps = F32.ofNat sr / F32.ofNat hop) (len ov : ℕ) (hl : len = (dur * fps).toUsize)
    (ho : ov = (overlap * fps).toUsize) (i : ℕ) (hi : i + (len - ov) ≤ chroma.length) :
    ∃ s, s ≤ i ∧ i < s + len ∧ s + len ≤ chroma.length ∧
      ∀ r, detectKey ord ((chroma.drop s).take len) T none = .ok r → (F32.ofNat s / fps, r.key, r.conf) ∈ c.segments := by
  obtain ⟨h1, h2, _, h4, _⟩ := C45_timeline ord ordC hordC chroma hn sr hop T dur overlap c h fps hf len ov hl ho
  have hlen : len ≤ chroma.length := by
    obtain ⟨g, hg⟩ := List.exists_mem_of_ne_nil _ h2
    obtain ⟨s, _, hs, _⟩ := (h4 g).1 hg
    omega
  generalize hd : len - ov = d at *
  have hd0 : 0 < d := by omega
  have hmod := Nat.div_add_mod i d
  have hmod' := Nat.mod_lt i hd0
  have hmodn := Nat.div_add_mod (chroma.length - len) d
  have hmodn' := Nat.mod_lt (chroma.length - len) hd0
  rcases Nat.le_total (i / d) ((chroma.length - len) / d) with hc | hc
  · have := Nat.mul_le_mul_left d hc
    refine ⟨d * (i / d), by omega, by omega, by omega, fun r hr => (h4 _).2 ⟨_, r, by omega, ⟨_, rfl⟩, hr, rfl⟩⟩
  · have := Nat.mul_le_mul_left d hc
    refine ⟨d * ((chroma.length - len) / d), by omega, by omega, by omega,
      fun r hr => (h4 _).2 ⟨_, r, by omega, ⟨_, rfl⟩, hr, rfl⟩⟩

theorem changeSegments_congr {ord : List (Key × F32) → List (Key × F32)} {a b : List (List F32)} {T : Templates} {fps : F32}
    {len : ℕ} : ∀ {starts : List ℕ}, (∀ s ∈ starts, (a.drop s).take len = (b.drop s).take len) →
    changeSegments ord a T fps len starts = changeSegments ord b T fps len starts
  | [], _ => rfl
  | s :: ss, h => by
    rw [changeSegments, changeSegments, h s (by simp), changeSegments_congr (fun t ht => h t (by simp [ht]))]

/-- **C140 is violated**: whatever is played after the last full segment, for as long as a step less one frame, has no
influence: neither on the key nor on the key changes. -/
theorem C140_violated (ord : List (Key × F32) → List (Key × F32)) (ordC : List (Key × ℕ × F32) → List (Key × ℕ × F32))
    (track tail : List (List F32)) (sr hop : ℕ) (T : Templates) (dur overlap : F32) (len ov k : ℕ)
    (hl : len = (dur * (F32.ofNat sr / F32.ofNat hop)).toUsize) (ho : ov = (overlap * (F32.ofNat sr / F32.ofNat hop)).toUsize)
    (h0 : track ≠ []) (hk : track.length = len + k * (len - ov)) (ht : tail.length < len - ov) :
    keyChanges ord ordC (track ++ tail) sr hop T dur overlap = keyChanges ord ordC track sr hop T dur overlap := by
  have hd : 0 < len - ov := by omega
  have e1 : segStarts (track ++ tail).length len (len - ov) = segStarts track.length len (len - ov) := by
    unfold segStarts
    rw [List.length_append, if_pos (by omega), if_pos (by omega), hk]
    have a1 : len + k * (len - ov) + tail.length - len = tail.length + (len - ov) * k := by
      rw [Nat.mul_comm]; omega
    have a2 : len + k * (len - ov) - len = (len - ov) * k := by rw [Nat.mul_comm]; omega
    rw [a1, a2, Nat.add_mul_div_left _ _ hd, Nat.div_eq_of_lt ht, Nat.zero_add, Nat.mul_div_cancel_left _ hd]
  have e2 : changeSegments ord (track ++ tail) T (F32.ofNat sr / F32.ofNat hop) len (segStarts track.length len (len - ov)) =
      changeSegments ord track T (F32.ofNat sr / F32.ofNat hop) len (segStarts track.length len (len - ov)) := by
    refine changeSegments_congr (fun s hs => ?_)
    have := ((mem_segStarts hd).1 hs).1
    rw [List.drop_append_of_le_length (by omega), List.take_append_of_le_length (by rw [List.length_drop]; omega)]
  unfold keyChanges
  rw [if_neg (by simp [h0]), if_neg h0]
  dsimp only
  rw [← hl, ← ho, e1, e2]

/-- The default segments (8 s, overlap 2 s at 44.1 kHz and hop 512) leave up to 516 frames unheard, 6 seconds of music. -/
example : ((8 : F32) * (F32.ofNat 44100 / F32.ofNat 512)).toUsize = 689 ∧
    ((2 : F32) * (F32.ofNat 44100 / F32.ofNat 512)).toUsize = 172 := by
  decide +kernel

/-- A change to F# major in the last frame, segments of two frames that overlap by nothing: not reported. -/
example : keyChanges id id ([krumhanslKessler.getMajor 0, krumhanslKessler.getMajor 0] ++ [krumhanslKessler.getMajor 6]) 1 1
      krumhanslKessler 2 0 =
    keyChanges id id [krumhanslKessler.getMajor 0, krumhanslKessler.getMajor 0] 1 1 krumhanslKessler 2 0 :=
  C140_violated id id _ _ 1 1 krumhanslKessler 2 0 2 0 0 (by decide +kernel) (by decide +kernel) (by simp) (by simp) (by simp)

/-- **C140 is violated** (short tracks): a track shorter than one segment is rejected, however clear its key, although its
chroma vectors are neither empty nor invalid. -/
theorem C140_violated_short (ord : List (Key × F32) → List (Key × F32))
    (ordC : List (Key × ℕ × F32) → List (Key × ℕ × F32)) (track : List (List F32)) (sr hop : ℕ) (T : Templates)
    (dur overlap : F32) (hs : track.length < (dur * (F32.ofNat sr / F32.ofNat hop)).toUsize)
    (ho : (overlap * (F32.ofNat sr / F32.ofNat hop)).toUsize < (dur * (F32.ofNat sr / F32.ofNat hop)).toUsize) :
    keyChanges ord ordC track sr hop T dur overlap = R.err .invalidInput := by
  unfold keyChanges
  by_cases h0 : track = []
  · rw [if_pos h0]
  rw [if_neg h0]
  dsimp only
  rw [if_neg (by omega), if_neg (by omega)]
  have : segStarts track.length (dur * (F32.ofNat sr / F32.ofNat hop)).toUsize
      ((dur * (F32.ofNat sr / F32.ofNat hop)).toUsize - (overlap * (F32.ofNat sr / F32.ofNat hop)).toUsize) = [] := by
    unfold segStarts; rw [if_neg (by omega)]
  rw [this]
  rfl

/-- Seven seconds in C major. -/
example : keyChanges id id (List.replicate 603 (krumhanslKessler.getMajor 0)) 44100 512 krumhanslKessler 8 2 =
    R.err .invalidInput :=
  C140_violated_short id id _ 44100 512 krumhanslKessler 8 2 (by rw [List.length_replicate]; decide +kernel) (by decide +kernel)

end Verif.Props
