/-
Property theorems C137: silence at the beginning and at the end of a recording (src/preprocessing/silence.rs,
`detect_and_trim`).
-/
import Verif.Props.Retrim

namespace Verif.Props
open Verif Verif.Silence

theorem isFrame_lt {n fs i j : ℕ} (hi : IsFrame n fs i) (hj : ¬ IsFrame n fs j) : i < j := by
  by_contra h
  exact hj (isFrame_down hi (by omega))

/-- **C137 (the beginning).** Silent frames at the beginning are cut off, however few: the trimmed audio starts with the first
loud frame. -/
theorem C137_leading (M : Libm) (x y : List F32) (sr : ℕ) (det : Detector) (map : List (ℕ × ℕ)) (i : ℕ)
    (h0 : x ≠ []) (hs : sr ≠ 0) (h2 : 2 ≤ det.frameSize) (h : detectAndTrim M x sr det = .ok (y, map))
    (hl : LoudFrame M det x i) (hq : ∀ k < i, SilentFrame x det.frameSize (M.powf 10 (det.thresholdDb / 20)) k) :
    ∃ n, 0 < n ∧ y = (x.drop (i * (det.frameSize / 2))).take n := by
  have hn : 0 < x.length := List.length_pos_iff.2 h0
  have hop0 : 0 < det.frameSize / 2 := by omega
  obtain ⟨map', a, b, e, ha, hb⟩ := trim_by_map M x sr det h0 hs h2
  rw [e] at h
  injection h with h
  injection h with hy hm
  subst hm
  have hib : i * (det.frameSize / 2) < b := by
    rcases hb with hb | ⟨rfl, -⟩
    · obtain ⟨i', j', h1, h3, -, -⟩ := tail_entry h0 hs h2 e hb
      rw [h3]
      refine Nat.mul_lt_mul_of_pos_right ?_ hop0
      by_contra hc
      exact hl.2 (h1.2.2 i (by omega) (isFrame_lt hl.1 h1.2.1)).2
    · exact isFrame_pos h2 hn hl.1
  have haa : a = i * (det.frameSize / 2) := by
    rcases Nat.eq_zero_or_pos i with rfl | hi
    · rw [Nat.zero_mul]
      rcases ha with ⟨e', h1, -⟩ | ⟨h1, -⟩
      · obtain ⟨i', j', h3, h4, -, -, h5, -⟩ := (map_entry h0 hs h2 e _ _).1 h1
        have : i' = 0 := by
          rcases Nat.mul_eq_zero.1 h5.symm with h | h
          · exact h
          · omega
        subst this
        exact absurd (h4 0 (by omega) h3).2 hl.2
      · exact h1
    · have hmem : (0, i * (det.frameSize / 2)) ∈ map' :=
        (map_entry h0 hs h2 e _ _).2 ⟨0, i, hi, fun k _ hk => ⟨isFrame_down hl.1 (by omega), hq k hk⟩, .inl rfl, .inl rfl, by simp,
          .inr ⟨hl.1, hl.2, rfl⟩⟩
      rcases ha with ⟨e', h1, h3⟩ | ⟨-, h1⟩
      · obtain ⟨i', j', h4, h5, -, -, h6, h7⟩ := (map_entry h0 hs h2 e _ _).1 h1
        have : i' = 0 := by
          rcases Nat.mul_eq_zero.1 h6.symm with h | h
          · exact h
          · omega
        subst this
        have hj : j' ≤ i := by
          by_contra hc
          exact hl.2 (h5 i (by omega) (by omega)).2
        rcases h7 with ⟨h7, -⟩ | ⟨-, h7, rfl⟩
        · exact absurd (isFrame_down hl.1 hj) h7
        · have : j' = i := by
            by_contra hc
            exact h7 (hq j' (by omega))
          subst this
          rw [h3]; omega
      · exact absurd hmem (h1 _)
  exact ⟨b - a, by omega, by rw [← haa]; exact hy.symm⟩

/-- **C137 (the end, when the silence is long).** Silent frames at the end are cut off when they last for the minimum duration:
the trimmed audio ends where the first of them begins. -/
theorem C137_trailing_partial (M : Libm) (x y : List F32) (sr : ℕ) (det : Detector) (map : List (ℕ × ℕ)) (i j : ℕ)
    (h0 : x ≠ []) (hs : sr ≠ 0) (h2 : 2 ≤ det.frameSize) (h : detectAndTrim M x sr det = .ok (y, map))
    (he : EndsSilent M det x i j) (hi : 0 < i) (hl : LoudFrame M det x (i - 1))
    (hd : (F32.ofNat det.minDurationMs / 1000 * F32.ofNat sr).toUsize ≤ (j - i) * (det.frameSize / 2)) :
    ∃ a, a < i * (det.frameSize / 2) ∧ y = (x.drop a).take (i * (det.frameSize / 2) - a) := by
  have hop0 : 0 < det.frameSize / 2 := by omega
  obtain ⟨map', a, b, e, ha, hb⟩ := trim_by_map M x sr det h0 hs h2
  rw [e] at h
  injection h with h
  injection h with hy hm
  subst hm
  have hmem : (i * (det.frameSize / 2), x.length) ∈ map' :=
    (map_entry h0 hs h2 e _ _).2 ⟨i, j, he.1, he.2.2, .inr hl.2, .inr hd, rfl, .inl ⟨he.2.1, rfl⟩⟩
  have hbi : b = i * (det.frameSize / 2) := by
    rcases hb with hb | ⟨-, hb⟩
    · obtain ⟨i', j', h1, h3, h4, -⟩ := tail_entry h0 hs h2 e hb
      rw [h3]
      congr 1
      rcases Nat.lt_trichotomy i' i with hlt | heq | hgt
      · exact absurd (h1.2.2 (i - 1) (by omega) (isFrame_lt hl.1 h1.2.1)).2 hl.2
      · exact heq
      · rcases h4 with h4 | h4
        · omega
        · exact absurd (he.2.2 (i' - 1) (by omega) (isFrame_lt h4.1 he.2.1)).2 h4.2
    · exact absurd hmem (hb _)
  have hab : a < b := by
    rcases ha with ⟨e', h1, h3⟩ | ⟨h1, -⟩
    · obtain ⟨i', j', h4, h5, -, -, h6, h7⟩ := (map_entry h0 hs h2 e _ _).1 h1
      have : i' = 0 := by
        rcases Nat.mul_eq_zero.1 h6.symm with h | h
        · exact h
        · omega
      subst this
      have hj : j' ≤ i - 1 := by
        by_contra hc
        exact hl.2 (h5 (i - 1) (by omega) (by omega)).2
      rcases h7 with ⟨h7, -⟩ | ⟨-, h7, rfl⟩
      · exact absurd (isFrame_down hl.1 hj) h7
      · have := Nat.mul_lt_mul_of_pos_right (show j' < i by omega) hop0
        omega
    · rw [h1, hbi]; exact Nat.mul_pos hi hop0
  exact ⟨a, by omega, by rw [← hbi]; exact hy.symm⟩

/-- **C137 is violated at the end.** Trailing silence shorter than the minimum duration is never cut off, although the
function promises to trim leading and trailing silence and the same silence at the beginning is cut off (`C137_leading`). -/
theorem C137_violated (M : Libm) (x y : List F32) (sr : ℕ) (det : Detector) (map : List (ℕ × ℕ)) (k : ℕ)
    (h0 : x ≠ []) (hs : sr ≠ 0) (h2 : 2 ≤ det.frameSize) (h : detectAndTrim M x sr det = .ok (y, map))
    (hl : LoudFrame M det x k) (ht : ShortTail M det sr x) :
    (∃ a, y = x.drop a) ∧ ∀ s, (s, x.length) ∉ map := by
  obtain ⟨map', a, b, e, -, hb⟩ := trim_by_map M x sr det h0 hs h2
  rw [e] at h
  injection h with h
  injection h with hy hm
  subst hm
  rcases hb with hb | ⟨rfl, hb⟩
  · exfalso
    obtain ⟨i, j, h1, -, -, h5⟩ := tail_entry h0 hs h2 e hb
    have := ht i j h1
    rcases h5 with rfl | h5
    · exact hl.2 (h1.2.2 k (by omega) (isFrame_lt hl.1 h1.2.1)).2
    · omega
  · refine ⟨⟨a, ?_⟩, hb⟩
    rw [← hy, List.take_of_length_le (by rw [List.length_drop])]

/-- a recording and the same recording played backwards: the silence is cut off in front only (frames of 2 samples, minimum
duration half a second at 10 Hz) -/
theorem C137_violated_reverse :
    detectAndTrim Libm.demo [0, 0, 0, 1, 1, 1] 10 ⟨-40, 500, 2⟩ = .ok ([0, 1, 1, 1], [(0, 2)]) ∧
    detectAndTrim Libm.demo [1, 1, 1, 0, 0, 0] 10 ⟨-40, 500, 2⟩ = .ok ([1, 1, 1, 0, 0, 0], []) := by
  decide +kernel

/-! ### The hypotheses can be met -/

instance (n fs k : ℕ) : Decidable (IsFrame n fs k) := by unfold IsFrame; infer_instance
instance (x : List F32) (fs : ℕ) (t : F32) (k : ℕ) : Decidable (SilentFrame x fs t k) := by unfold SilentFrame; infer_instance

/-- frame 2 of `[0, 0, 0, 1, 1, 1]` is its first loud frame -/
example : LoudFrame Libm.demo ⟨-40, 500, 2⟩ [0, 0, 0, 1, 1, 1] 2 ∧
    ∀ k < 2, SilentFrame [0, 0, 0, 1, 1, 1] 2 (Libm.demo.powf 10 (-40 / 20)) k := by
  unfold LoudFrame
  decide +kernel

/-- `[1, 1, 1, 0, 0, 0]` ends with the silent frames 3 and 4; at 4 Hz they last for half a second -/
example : EndsSilent Libm.demo ⟨-40, 500, 2⟩ [1, 1, 1, 0, 0, 0] 3 5 ∧ LoudFrame Libm.demo ⟨-40, 500, 2⟩ [1, 1, 1, 0, 0, 0] 2 ∧
    (F32.ofNat 500 / 1000 * F32.ofNat 4).toUsize ≤ (5 - 3) * (2 / 2) ∧
    detectAndTrim Libm.demo [1, 1, 1, 0, 0, 0] 4 ⟨-40, 500, 2⟩ = .ok ([1, 1, 1], [(3, 6)]) := by
  have hk : ∀ k, 3 ≤ k → k < 5 → k = 3 ∨ k = 4 := by omega
  refine ⟨⟨by decide, by decide +kernel, fun k h1 h2 => ?_⟩, ?_, by decide +kernel, by decide +kernel⟩
  · rcases hk k h1 h2 with rfl | rfl <;> decide +kernel
  · unfold LoudFrame; decide +kernel

/-- at 10 Hz they do not -/
example : ShortTail Libm.demo ⟨-40, 500, 2⟩ 10 [1, 1, 1, 0, 0, 0] ∧ LoudFrame Libm.demo ⟨-40, 500, 2⟩ [1, 1, 1, 0, 0, 0] 0 := by
  refine ⟨fun i j h => ?_, by unfold LoudFrame; decide +kernel⟩
  have h5 : (F32.ofNat 500 / 1000 * F32.ofNat 10).toUsize = 5 := by decide +kernel
  show (j - i) * (2 / 2) < (F32.ofNat 500 / 1000 * F32.ofNat 10).toUsize
  rw [h5]
  have h1 : IsFrame 6 2 (j - 1) := (h.2.2 (j - 1) (by have := h.1; omega) (by have := h.1; omega)).1
  have h3 : ¬ SilentFrame [1, 1, 1, 0, 0, 0] 2 (Libm.demo.powf 10 (-40 / 20)) 2 := by decide +kernel
  have h4 : 2 < i := by
    by_contra hc
    exact h3 (h.2.2 2 (by omega) (isFrame_lt (n := 6) (fs := 2) (by decide +kernel) h.2.1)).2
  have : j - 1 ≤ 4 := by
    rcases h1 with h | ⟨h, -⟩ <;> omega
  omega

end Verif.Props
