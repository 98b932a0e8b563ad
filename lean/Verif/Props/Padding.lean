/-
Property theorems C105: digital silence around a recording
(src/preprocessing/silence.rs, `detect_and_trim`).
-/
import Verif.Props.Retrim
import Verif.Props.Analyze

namespace Verif.Props
open Verif Verif.Silence

/-- `n` samples of digital silence. -/
def hush (n : ℕ) : List F32 := List.replicate n 0

/-- The frames of the recording behind the silence. -/
theorem frame_behind {x : List F32} {fs m k : ℕ} :
    Silence.frame (hush (m * (fs / 2)) ++ x) fs (m + k) = Silence.frame x fs k := by
  unfold Silence.frame
  rw [Nat.add_mul, ← List.drop_drop, List.drop_left' (by simp [hush])]

/-- Frames inside the silence in front are silent. -/
theorem silent_front {M : Libm} {det : Detector} {x : List F32} {m k : ℕ} (heven : det.frameSize = 2 * (det.frameSize / 2))
    (hthr : 0 ≤ M.powf 10 (det.thresholdDb / 20)) (hk : k + 2 ≤ m) :
    SilentFrame (hush (m * (det.frameSize / 2)) ++ x) det.frameSize (M.powf 10 (det.thresholdDb / 20)) k := by
  unfold SilentFrame
  rw [zero_rms]
  · exact hthr
  · intro v hv
    unfold Silence.frame at hv
    have h1 := Nat.mul_le_mul_right (det.frameSize / 2) hk
    rw [Nat.add_mul] at h1
    rw [List.drop_append_of_le_length (by simp [hush]; omega), List.take_append_of_le_length (by simp [hush]; omega)] at hv
    exact List.eq_of_mem_replicate (List.mem_of_mem_drop (List.mem_of_mem_take hv))

/-- **C105 (silence in front, partial).** Full claim: digital silence around a recording does not change what is
analysed.  Proved here: a recording that trimming leaves alone (loud first frame, short tail; `C104_unchanged_iff`)
comes back when any number of half frames of digital silence is put in front of it, except that one of these half frames
may stay.  That it may stay is `C105_violated`. -/
theorem C105_front_partial (M : Libm) (x : List F32) (sr : ℕ) (det : Detector) (m : ℕ)
    (hs : sr ≠ 0) (h2 : 2 ≤ det.frameSize) (heven : det.frameSize = 2 * (det.frameSize / 2))
    (hthr : 0 ≤ M.powf 10 (det.thresholdDb / 20)) (hm : 1 ≤ m) (hx : det.frameSize ≤ x.length)
    (hl : LoudFrame M det x 0) (ht : ShortTail M det sr x) :
    ∃ map, detectAndTrim M (hush (m * (det.frameSize / 2)) ++ x) sr det = .ok (x, map) ∨
      detectAndTrim M (hush (m * (det.frameSize / 2)) ++ x) sr det = .ok (hush (det.frameSize / 2) ++ x, map) := by
  have hop0 : 0 < det.frameSize / 2 := by omega
  set z := hush (m * (det.frameSize / 2)) ++ x with hz
  have hzl : z.length = m * (det.frameSize / 2) + x.length := by simp [hz, hush]
  have h0 : z ≠ [] := by intro hc; rw [hc] at hzl; simp at hzl; omega
  have hfr : ∀ k, IsFrame z.length det.frameSize (m + k) ↔ IsFrame x.length det.frameSize k := by
    intro k
    unfold IsFrame
    rw [hzl, Nat.add_mul]
    omega
  have hsil : ∀ k, SilentFrame z det.frameSize (M.powf 10 (det.thresholdDb / 20)) (m + k) ↔
      SilentFrame x det.frameSize (M.powf 10 (det.thresholdDb / 20)) k := by
    intro k; unfold SilentFrame; rw [hz, frame_behind]
  have hlm : ¬ SilentFrame z det.frameSize (M.powf 10 (det.thresholdDb / 20)) m := fun hc => hl.2 ((hsil 0).1 hc)
  have hfm : IsFrame z.length det.frameSize m := (hfr 0).2 hl.1
  obtain ⟨map, a, b, e, ha, hb⟩ := trim_by_map M z sr det h0 hs h2
  have hb' : b = z.length := by
    rcases hb with hb | hb
    · exfalso
      obtain ⟨i, j, g1, g2, g3, g4⟩ := tail_entry h0 hs h2 e hb
      have hmj : m < j := by
        by_contra hc
        exact g1.2.1 (isFrame_down hfm (by omega))
      have hmi : m < i := by
        by_contra hc
        exact hlm (g1.2.2 m (by omega) hmj).2
      have hij := g1.1
      have := ht (i - m) (j - m) ⟨by omega, fun hc => g1.2.1 (by
          have := (hfr (j - m)).2 hc
          rwa [show m + (j - m) = j by omega] at this), fun k hk hk' => by
          have := g1.2.2 (m + k) (by omega) (by omega)
          exact ⟨(hfr k).1 this.1, (hsil k).1 this.2⟩⟩
      rw [show j - m - (i - m) = j - i by omega] at this
      rcases g4 with h | h <;> omega
    · exact hb.1
  obtain ⟨j, haj, hj⟩ : ∃ j, a = j * (det.frameSize / 2) ∧ (j = m ∨ j + 1 = m) := by
    rcases ha with ⟨e', hmem, ha⟩ | ⟨rfl, hno⟩
    · obtain ⟨i, j, g1, g3, g4, g5, g6, g7⟩ := (map_entry h0 hs h2 e _ _).1 hmem
      have : i = 0 := by rcases Nat.mul_eq_zero.1 g6.symm with h | h <;> omega
      subst this
      have hjm : j ≤ m := by
        by_contra hc
        exact hlm (g3 m (by omega) (by omega)).2
      rcases g7 with ⟨g7, _⟩ | ⟨g7, g8, rfl⟩
      · exact absurd (isFrame_down hfm hjm) g7
      · refine ⟨j, ?_, ?_⟩
        · have := Nat.mul_le_mul_right (det.frameSize / 2) hjm
          omega
        · by_contra hc
          exact g8 (silent_front heven hthr (by omega))
    · refine ⟨0, by simp, ?_⟩
      by_contra hc
      obtain ⟨e', he⟩ := head_run h0 hs h2 e (silent_front (k := 0) heven hthr (by omega))
      exact hno _ he
  subst haj hb'
  rw [List.take_of_length_le (by simp)] at e
  rcases hj with rfl | rfl
  · refine ⟨map, .inl ?_⟩
    rw [e, hz, List.drop_left' (by simp [hush])]
  · refine ⟨map, .inr ?_⟩
    rw [e, hz, List.drop_append_of_le_length (by simp [hush]; rw [Nat.add_mul]; omega)]
    congr 3
    unfold hush
    rw [List.drop_replicate]
    congr 1
    rw [Nat.add_mul]; omega

/-- Frames starting in the silence behind the recording are silent. -/
theorem silent_behind {M : Libm} {det : Detector} {x : List F32} {m k : ℕ}
    (hthr : 0 ≤ M.powf 10 (det.thresholdDb / 20)) (hk : x.length ≤ k * (det.frameSize / 2)) :
    SilentFrame (x ++ hush m) det.frameSize (M.powf 10 (det.thresholdDb / 20)) k := by
  unfold SilentFrame
  rw [zero_rms]
  · exact hthr
  · intro v hv
    unfold Silence.frame at hv
    rw [List.drop_append, List.drop_eq_nil_of_le hk, List.nil_append] at hv
    exact List.eq_of_mem_replicate (List.mem_of_mem_drop (List.mem_of_mem_take hv))

/-- **C105 (silence behind, partial).** A recording whose first and last frame are loud, followed by enough digital
silence, is cut less than half a frame behind its end and less than one frame before its end, and nothing is cut from
its front.  That the end is not met exactly is `C105_violated_end`. -/
theorem C105_end_partial (M : Libm) (x : List F32) (sr : ℕ) (det : Detector) (m last : ℕ)
    (hs : sr ≠ 0) (h2 : 2 ≤ det.frameSize)
    (hthr : 0 ≤ M.powf 10 (det.thresholdDb / 20)) (hx : det.frameSize ≤ x.length)
    (hl : LoudFrame M det x 0) (hlast : LoudFrame M det x last) (hno : ¬ IsFrame x.length det.frameSize (last + 1))
    (hm : (F32.ofNat det.minDurationMs / 1000 * F32.ofNat sr).toUsize + 2 * det.frameSize ≤ m) :
    ∃ map b, detectAndTrim M (x ++ hush m) sr det = .ok ((x ++ hush m).take b, map) ∧
      x.length < b + det.frameSize ∧ b < x.length + det.frameSize / 2 := by
  have hop0 : 0 < det.frameSize / 2 := by omega
  set z := x ++ hush m with hz
  have hzl : z.length = x.length + m := by simp [hz, hush]
  have h0 : z ≠ [] := by intro hc; rw [hc] at hzl; simp at hzl; omega
  have hfull : ∀ k, IsFrame x.length det.frameSize k ↔ k * (det.frameSize / 2) + det.frameSize ≤ x.length := by
    intro k; unfold IsFrame; omega
  have hfullz : ∀ k, IsFrame z.length det.frameSize k ↔ k * (det.frameSize / 2) + det.frameSize ≤ x.length + m := by
    intro k; unfold IsFrame; rw [hzl]; omega
  have hsil : ∀ k, IsFrame x.length det.frameSize k →
      (SilentFrame z det.frameSize (M.powf 10 (det.thresholdDb / 20)) k ↔
        SilentFrame x det.frameSize (M.powf 10 (det.thresholdDb / 20)) k) := by
    intro k hk
    have := (hfull k).1 hk
    unfold SilentFrame Silence.frame
    rw [hz, List.drop_append_of_le_length (by omega), List.take_append_of_le_length (by simp; omega)]
  have hl0 : ¬ SilentFrame z det.frameSize (M.powf 10 (det.thresholdDb / 20)) 0 := fun hc => hl.2 ((hsil 0 hl.1).1 hc)
  have hll : ¬ SilentFrame z det.frameSize (M.powf 10 (det.thresholdDb / 20)) last :=
    fun hc => hlast.2 ((hsil _ hlast.1).1 hc)
  rw [hfull] at hno
  have hlf := (hfull _).1 hlast.1
  rw [Nat.add_mul] at hno
  obtain ⟨map, a, b, e, ha, hb⟩ := trim_by_map M z sr det h0 hs h2
  have ha' : a = 0 := by
    rcases ha with ⟨e', hmem, ha⟩ | ha
    · obtain ⟨i, j, g1, g3, g4, g5, g6, g7⟩ := (map_entry h0 hs h2 e _ _).1 hmem
      have : i = 0 := by rcases Nat.mul_eq_zero.1 g6.symm with h | h <;> omega
      subst this
      exact absurd (g3 0 (by omega) g1).2 hl0
    · exact ha.1
  subst ha'
  refine ⟨map, b, by simpa using e, ?_⟩
  have key : (b, z.length) ∈ map := by
    rcases hb with hb | hb
    · exact hb
    · exfalso
      -- the first frame in the silence and the number of frames of the padded recording
      obtain ⟨p, hp1, hp2⟩ : ∃ p, x.length ≤ p * (det.frameSize / 2) ∧ p * (det.frameSize / 2) < x.length + det.frameSize / 2 := by
        refine ⟨(x.length + det.frameSize / 2 - 1) / (det.frameSize / 2), ?_, ?_⟩
        · have := Nat.lt_div_mul_add hop0 (a := x.length + det.frameSize / 2 - 1)
          omega
        · have := Nat.div_mul_le_self (x.length + det.frameSize / 2 - 1) (det.frameSize / 2)
          omega
      obtain ⟨q, hq1, hq2⟩ : ∃ q, q * (det.frameSize / 2) + det.frameSize ≤ x.length + m ∧
          x.length + m < (q + 1) * (det.frameSize / 2) + det.frameSize := by
        refine ⟨(x.length + m - det.frameSize) / (det.frameSize / 2), ?_, ?_⟩
        · have := Nat.div_mul_le_self (x.length + m - det.frameSize) (det.frameSize / 2)
          omega
        · have := Nat.lt_div_mul_add hop0 (a := x.length + m - det.frameSize)
          rw [Nat.add_mul]
          omega
      have hpq : p ≤ q := by
        by_contra hc
        have := Nat.mul_le_mul_right (det.frameSize / 2) (show q + 1 ≤ p by omega)
        omega
      have hends : EndsSilent M det z p (q + 1) := by
        refine ⟨by omega, fun hc => ?_, fun k hk hk' => ⟨?_, ?_⟩⟩
        · have := (hfullz _).1 hc; omega
        · have := Nat.mul_le_mul_right (det.frameSize / 2) (show k ≤ q by omega)
          exact (hfullz _).2 (by omega)
        · have := Nat.mul_le_mul_right (det.frameSize / 2) hk
          exact silent_behind hthr (by omega)
      obtain ⟨i', h1, h3, h4⟩ := tail_run hends
      refine hb.2 (i' * (det.frameSize / 2)) ((map_entry h0 hs h2 e _ _).2
        ⟨i', q + 1, h3.1, h3.2.2, h4, .inr ?_, rfl, .inl ⟨h3.2.1, rfl⟩⟩)
      have h5 := Nat.mul_le_mul_right (det.frameSize / 2) (show q + 1 - p ≤ q + 1 - i' by omega)
      rw [Nat.sub_mul] at h5
      omega
  obtain ⟨i, j, g1, g2, g3, g4⟩ := tail_entry h0 hs h2 e key
  have hi : last < i := by
    by_contra hc
    refine hll (g1.2.2 last (by omega) ?_).2
    by_contra hc'
    refine g1.2.1 (isFrame_down ((hfullz last).2 (by omega)) (by omega))
  have hi2 := Nat.mul_le_mul_right (det.frameSize / 2) (show last + 1 ≤ i by omega)
  rw [Nat.add_mul] at hi2
  refine ⟨by omega, ?_⟩
  rcases g3 with h | h
  · omega
  · have : ¬ x.length ≤ (i - 1) * (det.frameSize / 2) := fun hc => h.2 (silent_behind hthr hc)
    have h6 : i * (det.frameSize / 2) = (i - 1) * (det.frameSize / 2) + det.frameSize / 2 := by
      obtain ⟨i'', rfl⟩ : ∃ i'', i = i'' + 1 := ⟨i - 1, by omega⟩
      rw [Nat.add_sub_cancel, Nat.add_mul]; omega
    omega

/-- **C105 is violated by the code (front).** Two samples of digital silence before a recording: one of them stays. -/
theorem C105_violated :
    detectAndTrim Libm.demo [1, 1] 44100 ⟨-40, 0, 2⟩ = .ok ([1, 1], []) ∧
    detectAndTrim Libm.demo (hush 2 ++ [1, 1]) 44100 ⟨-40, 0, 2⟩ = .ok ([0, 1, 1], [(0, 1)]) := by
  decide +kernel

/-- **C105 is violated by the code (end).** With digital silence behind it the recording loses a sample above the
threshold amplitude (0.01) at its end. -/
theorem C105_violated_end :
    detectAndTrim Libm.demo [1, 0.012] 44100 ⟨-40, 0, 2⟩ = .ok ([1, 0.012], []) ∧
    detectAndTrim Libm.demo ([1, 0.012] ++ hush 4) 44100 ⟨-40, 0, 2⟩ = .ok ([1], [(1, 6)]) := by
  decide +kernel

/-! Non-vacuity: the recording of `C104_unchanged` with three half frames in front, and with five samples behind. -/
example : LoudFrame Libm.demo ⟨-40, 500, 2⟩ [1, 1, 1, 1] 0 ∧ ShortTail Libm.demo ⟨-40, 500, 2⟩ 4 [1, 1, 1, 1] ∧
    LoudFrame Libm.demo ⟨-40, 500, 2⟩ [1, 1, 1, 1] 2 ∧ ¬ IsFrame ([1, 1, 1, 1] : List F32).length 2 3 ∧
    0 ≤ Libm.demo.powf 10 (-40 / 20) ∧ (F32.ofNat 500 / 1000 * F32.ofNat 4).toUsize + 2 * 2 ≤ 6 := by
  have hl : ∀ k, k < 3 → ¬ SilentFrame [1, 1, 1, 1] 2 (Libm.demo.powf 10 (-40 / 20)) k := by
    unfold SilentFrame Silence.frame; decide +kernel
  refine ⟨⟨.inl (by simp), hl 0 (by omega)⟩, ?_, ⟨.inl (by simp), hl 2 (by omega)⟩, by unfold IsFrame; simp,
    by decide +kernel, by decide +kernel⟩
  rintro i j ⟨h1, h2, h3⟩
  have hj : j = 3 := by
    have a := (h3 (j - 1) (by omega) (by omega)).1
    unfold IsFrame at a h2
    simp at a h2
    omega
  subst hj
  exact absurd (h3 2 (by omega) (by omega)).2 (hl 2 (by omega))

end Verif.Props
