/-
Property theorems C01-C03: silence detection and trimming
(src/preprocessing/silence.rs, `detect_and_trim`).
-/
import Verif.Lemmas.Silence

namespace Verif.Props
open Verif Verif.Silence

/-- Independent description of the analysis frames: frame `k` is a full window that fits in the
signal, or the only (short) window of a signal shorter than one frame. -/
def IsFrame (n frameSize k : ℕ) : Prop :=
  k * (frameSize / 2) + frameSize ≤ n ∨ (k = 0 ∧ n < frameSize)

theorem isFrame_iff {n fs k : ℕ} (h2 : 2 ≤ fs) : IsFrame n fs k ↔ k < numFrames n fs (fs / 2) := by
  have hop0 : 0 < fs / 2 := by omega
  unfold IsFrame numFrames
  constructor
  · rintro (h | ⟨rfl, h⟩)
    · rw [if_pos (by omega)]
      have : k ≤ (n - fs) / (fs / 2) := (Nat.le_div_iff_mul_le hop0).2 (by omega)
      omega
    · rw [if_neg (by omega)]; omega
  · intro h
    split_ifs at h with h'
    · left
      have h1 : k ≤ (n - fs) / (fs / 2) := by omega
      have := (Nat.le_div_iff_mul_le hop0).1 h1
      omega
    · right; omega

/-- Frame `k` was measured as silent. -/
def SilentFrame (samples : List F32) (fs : ℕ) (thr : F32) (k : ℕ) : Prop :=
  frameRms (frame samples fs k) ≤ thr

/-- The per-frame decisions of the whole signal. -/
def decisions (samples : List F32) (fs : ℕ) (thr : F32) : List Bool :=
  (List.range (numFrames samples.length fs (fs / 2))).map
    (fun k => decide (frameRms (frame samples fs k) ≤ thr))

theorem decisions_get {samples : List F32} {fs : ℕ} {thr : F32} {k : ℕ} {b : Bool} :
    (decisions samples fs thr)[k]? = some b ↔
      k < numFrames samples.length fs (fs / 2) ∧ b = decide (frameRms (frame samples fs k) ≤ thr) := by
  unfold decisions
  simp only [List.getElem?_map, Option.map_eq_some_iff]
  constructor
  · rintro ⟨a, h1, h2⟩
    have := List.getElem?_eq_some_iff.1 h1
    obtain ⟨h3, h4⟩ := this
    simp at h3 h4
    subst h4
    exact ⟨h3, h2.symm⟩
  · rintro ⟨h1, h2⟩
    exact ⟨k, by simp [h1], h2.symm⟩

theorem detectAndTrim_unfold {M : Libm} {samples : List F32} {sr : ℕ} {det : Detector}
    (h0 : samples ≠ []) (hs : sr ≠ 0) (h2 : 2 ≤ det.frameSize) :
    ∃ rs, detectAndTrim M samples sr det =
        .ok ((samples.drop (trimBounds samples.length rs).1).take
              ((trimBounds samples.length rs).2 - (trimBounds samples.length rs).1),
             rs.map (fun r => (r.start, r.stop))) ∧
      (∀ r, r ∈ rs ↔ ∃ i j, IsRun (decisions samples det.frameSize (M.powf 10 (det.thresholdDb / 20))) i j ∧
        (i = 0 ∨ minFrames det sr (det.frameSize / 2) ≤ j - i) ∧
        r = ⟨i * (det.frameSize / 2),
             if j = numFrames samples.length det.frameSize (det.frameSize / 2) then samples.length
             else j * (det.frameSize / 2)⟩) ∧
      rs.Pairwise (fun a b => a.stop < b.start) ∧ (∀ r ∈ rs, r.start < r.stop ∧ r.stop ≤ samples.length) := by
  set thr := M.powf 10 (det.thresholdDb / 20) with hthr
  set fs := det.frameSize with hfs
  have hop0 : 0 < fs / 2 := by omega
  have hn : 0 < samples.length := List.length_pos_iff.2 h0
  set S := decisions samples fs thr with hS
  have hlen : S.length = numFrames samples.length fs (fs / 2) := by simp [hS, decisions]
  obtain ⟨rs, hrs, hmem, hord⟩ := regionsOf_spec (n := samples.length)
    (minF := minFrames det sr (fs / 2)) (hop := fs / 2) (S := S) hop0
  have hbound : ∀ r ∈ rs, r.start < r.stop ∧ r.stop ≤ samples.length := by
    intro r hr
    obtain ⟨i, j, g1, _, rfl⟩ := (hmem r).1 hr
    have hij := g1.1
    have hjl := g1.2.1
    have hbi := numFrames_bound (n := samples.length) (fs := fs) hop0 (i := i) (by omega)
    dsimp only
    split_ifs with hj
    · refine ⟨?_, Nat.le_refl _⟩
      rcases Nat.lt_or_ge samples.length fs with h | h
      · have := hbi.2 h; subst this; omega
      · have := hbi.1 h; omega
    · refine ⟨(Nat.mul_lt_mul_right hop0).2 hij, ?_⟩
      have hbj := numFrames_bound (n := samples.length) (fs := fs) hop0 (i := j) (by omega)
      rcases Nat.lt_or_ge samples.length fs with h | h
      · have := hbj.2 h; omega
      · have := hbj.1 h; omega
  refine ⟨rs, ?_, ?_, hord, hbound⟩
  · unfold detectAndTrim
    rw [if_neg h0, if_neg hs, if_neg (by omega)]
    dsimp only
    rw [if_neg (by omega)]
    have hm : (List.range (numFrames samples.length fs (fs / 2))).mapM (frameRmsAt samples fs (fs / 2)) =
        .ok ((List.range (numFrames samples.length fs (fs / 2))).map (fun k => frameRms (frame samples fs k))) :=
      mapM_ok (fun k hk => frameRmsAt_ok h2 (by simpa using hk))
    rw [hm]
    simp only [R.ok_bind, List.map_map]
    have e : ((fun r => decide (r ≤ thr)) ∘ fun k => frameRms (frame samples fs k)) =
        fun k => decide (frameRms (frame samples fs k) ≤ thr) := rfl
    rw [e]
    rw [← hlen]
    have e2 : (List.range S.length).map (fun k => decide (frameRms (frame samples fs k) ≤ thr)) = S := by
      rw [hlen]; rfl
    rw [e2, hrs]
    simp only [R.ok_bind]
    have hle := trimBounds_le samples.length rs (fun r hr => by have := hbound r hr; omega)
    by_cases hc : (trimBounds samples.length rs).1 < (trimBounds samples.length rs).2
    · rw [if_pos ⟨hc, hle.2⟩, slice_ok hle.1 hle.2]; rfl
    · rw [if_neg (fun h => hc h.1)]
      have : (trimBounds samples.length rs).2 - (trimBounds samples.length rs).1 = 0 := by omega
      rw [this]; simp
  · rw [← hlen]; exact hmem

/-- **C01.** Whenever `detect_and_trim` returns, the trimmed audio is a contiguous piece of the
input, and the silence map consists of non-empty, in-bounds, strictly ordered, disjoint regions. -/
theorem C01_trim_contiguous (M : Libm) (samples : List F32) (sr : ℕ) (det : Detector)
    (trimmed : List F32) (map : List (ℕ × ℕ))
    (h : detectAndTrim M samples sr det = .ok (trimmed, map)) :
    (∃ a b, a ≤ b ∧ b ≤ samples.length ∧ trimmed = (samples.drop a).take (b - a)) ∧
    (∀ r ∈ map, r.1 < r.2 ∧ r.2 ≤ samples.length) ∧
    map.Pairwise (fun r s => r.2 < s.1) := by
  by_cases h0 : samples = []
  · subst h0
    have : trimmed = [] ∧ map = [] := by simpa [detectAndTrim, eq_comm] using h
    obtain ⟨rfl, rfl⟩ := this
    exact ⟨⟨0, 0, by simp⟩, by simp, by simp⟩
  by_cases hs : sr = 0
  · simp [detectAndTrim, h0, hs] at h
  by_cases hf : 2 ≤ det.frameSize
  · obtain ⟨rs, e, _, hord, hb⟩ := detectAndTrim_unfold (M := M) h0 hs hf
    rw [e] at h
    simp only [Except.ok.injEq, Prod.mk.injEq] at h
    obtain ⟨rfl, rfl⟩ := h
    have hle := trimBounds_le samples.length rs (fun r hr => by have := hb r hr; omega)
    refine ⟨⟨_, _, hle.1, hle.2, rfl⟩, ?_, ?_⟩
    · intro r hr
      obtain ⟨r', hr', rfl⟩ := List.mem_map.1 hr
      exact hb r' hr'
    · rw [List.pairwise_map]; exact hord
  · exfalso
    unfold detectAndTrim at h
    rw [if_neg h0, if_neg hs] at h
    by_cases h1 : det.frameSize = 0
    · simp [h1] at h
    · have h2 : det.frameSize / 2 = 0 := by omega
      rw [if_neg h1] at h
      dsimp only at h
      rw [if_pos h2] at h
      simp at h

/-- **C01 (content of the map).** The silence map lists exactly the maximal runs of silent frames
that start at the first frame or last at least the minimum duration; a run reaching the last frame
extends to the end of the signal. -/
theorem C01_silence_map_exact (M : Libm) (samples : List F32) (sr : ℕ) (det : Detector)
    (h0 : samples ≠ []) (hs : sr ≠ 0) (h2 : 2 ≤ det.frameSize) :
    ∃ trimmed map, detectAndTrim M samples sr det = .ok (trimmed, map) ∧
      ∀ s e, (s, e) ∈ map ↔ ∃ i j, i < j ∧
        -- frames i .. j-1 are analysed and silent
        (∀ k, i ≤ k → k < j → IsFrame samples.length det.frameSize k ∧
          SilentFrame samples det.frameSize (M.powf 10 (det.thresholdDb / 20)) k) ∧
        -- the run cannot be extended to the left
        (i = 0 ∨ ¬ SilentFrame samples det.frameSize (M.powf 10 (det.thresholdDb / 20)) (i - 1)) ∧
        -- long enough or leading
        (i = 0 ∨ (F32.ofNat det.minDurationMs / 1000 * F32.ofNat sr).toUsize ≤
          (j - i) * (det.frameSize / 2)) ∧
        s = i * (det.frameSize / 2) ∧
        -- the run cannot be extended to the right
        ((¬ IsFrame samples.length det.frameSize j ∧ e = samples.length) ∨
         (IsFrame samples.length det.frameSize j ∧
          ¬ SilentFrame samples det.frameSize (M.powf 10 (det.thresholdDb / 20)) j ∧
          e = j * (det.frameSize / 2))) := by
  obtain ⟨rs, e, hmem, _, _⟩ := detectAndTrim_unfold (M := M) h0 hs h2
  refine ⟨_, _, e, ?_⟩
  intro s e'
  have hlen : (decisions samples det.frameSize (M.powf 10 (det.thresholdDb / 20))).length =
      numFrames samples.length det.frameSize (det.frameSize / 2) := by simp [decisions]
  have hm : (s, e') ∈ rs.map (fun r => (r.start, r.stop)) ↔ (⟨s, e'⟩ : Region) ∈ rs := by
    simp only [List.mem_map, Prod.mk.injEq]
    constructor
    · rintro ⟨r, hr, rfl, rfl⟩; exact hr
    · intro h; exact ⟨_, h, rfl, rfl⟩
  have hmin : ∀ i j, minFrames det sr (det.frameSize / 2) ≤ j - i ↔
      (F32.ofNat det.minDurationMs / 1000 * F32.ofNat sr).toUsize ≤ (j - i) * (det.frameSize / 2) := by
    intro i j
    have hop0 : 0 < det.frameSize / 2 := by omega
    unfold minFrames
    dsimp only
    rw [← Nat.lt_succ_iff, Nat.div_lt_iff_lt_mul hop0, Nat.succ_mul]
    omega
  simp only [hmin] at hmem
  rw [hm, hmem]
  unfold IsRun
  rw [hlen]
  simp only [decisions_get, Region.mk.injEq, isFrame_iff h2, SilentFrame]
  constructor
  · rintro ⟨i, j, ⟨g1, g2, g3, g4, g5⟩, g6, rfl, g7⟩
    refine ⟨i, j, g1, ?_, ?_, g6, rfl, ?_⟩
    · intro k hk hk'
      have := g3 k hk hk'
      exact ⟨this.1, by simpa using this.2.symm⟩
    · rcases g4 with g | g
      · exact .inl g
      · exact .inr (by simpa using g.2.symm)
    · split_ifs at g7 with hj
      · left; exact ⟨by omega, g7⟩
      · right
        rcases g5 with g | g
        · exact absurd g hj
        · exact ⟨g.1, by simpa using g.2.symm, g7⟩
  · rintro ⟨i, j, g1, g3, g4, g6, rfl, g7⟩
    have hjl : j ≤ numFrames samples.length det.frameSize (det.frameSize / 2) := by
      have := (g3 (j - 1) (by omega) (by omega)).1; omega
    refine ⟨i, j, ⟨g1, hjl, ?_, ?_, ?_⟩, g6, rfl, ?_⟩
    · intro k hk hk'
      have := g3 k hk hk'
      exact ⟨this.1, by simp [this.2]⟩
    · rcases g4 with g | g
      · exact .inl g
      · refine .inr ⟨by omega, by simp [g]⟩
    · rcases g7 with g | g
      · left; omega
      · right; exact ⟨g.1, by simp [g.2.1]⟩
    · rcases g7 with g | g
      · rw [if_pos (by omega)]; exact g.2
      · rw [if_neg (by omega)]; exact g.2.2

/-- A sample position lies in an analysed frame that was measured silent. -/
def InSilentFrame (samples : List F32) (fs : ℕ) (thr : F32) (t : ℕ) : Prop :=
  ∃ k, IsFrame samples.length fs k ∧ k * (fs / 2) ≤ t ∧ t < k * (fs / 2) + fs ∧ SilentFrame samples fs thr k

/-- **C02 (partial).** Full claim: every trimmed-off sample belongs to a silent analysed frame.
Proved here: the cut points `a ≤ b` exist such that this holds for every sample before `a`, and for
every sample from `b` on except those of the last incomplete hop, which belong to no analysed frame
at all (fewer than `frame_size/2` samples).  What is missing is false, see `C02_violated`. -/
theorem C02_trimmed_is_silent_partial (M : Libm) (samples : List F32) (sr : ℕ) (det : Detector)
    (h0 : samples ≠ []) (hs : sr ≠ 0) (h2 : 2 ≤ det.frameSize) :
    ∃ a b map, detectAndTrim M samples sr det = .ok ((samples.drop a).take (b - a), map) ∧
      a ≤ b ∧ b ≤ samples.length ∧
      (∀ t, t < a → InSilentFrame samples det.frameSize (M.powf 10 (det.thresholdDb / 20)) t) ∧
      (∀ t, b ≤ t → t < samples.length →
        InSilentFrame samples det.frameSize (M.powf 10 (det.thresholdDb / 20)) t ∨
        ((∀ k, IsFrame samples.length det.frameSize k → k * (det.frameSize / 2) + det.frameSize ≤ t) ∧
          samples.length - t < det.frameSize / 2)) := by
  obtain ⟨rs, e, hmem, hord, hb⟩ := detectAndTrim_unfold (M := M) h0 hs h2
  set thr := M.powf 10 (det.thresholdDb / 20) with hthr
  set fs := det.frameSize with hfs
  have hop0 : 0 < fs / 2 := by omega
  have hle := trimBounds_le samples.length rs (fun r hr => by have := hb r hr; omega)
  have hlen : (decisions samples fs thr).length = numFrames samples.length fs (fs / 2) := by simp [decisions]
  -- samples covered by a run
  have hcov : ∀ i j t, IsRun (decisions samples fs thr) i j → i * (fs / 2) ≤ t → t < j * (fs / 2) →
      InSilentFrame samples fs thr t := by
    intro i j t hr h1 h2'
    have hk1 : i ≤ t / (fs / 2) := (Nat.le_div_iff_mul_le hop0).2 h1
    have hk2 : t / (fs / 2) < j := (Nat.div_lt_iff_lt_mul hop0).2 h2'
    have := decisions_get.1 (hr.2.2.1 _ hk1 hk2)
    refine ⟨t / (fs / 2), (isFrame_iff h2).2 this.1, Nat.div_mul_le_self _ _, ?_, by simpa [SilentFrame] using this.2.symm⟩
    have h5 := Nat.lt_div_mul_add (a := t) hop0
    have : fs / 2 ≤ fs := Nat.div_le_self _ _
    omega
  refine ⟨_, _, _, e, hle.1, hle.2, ?_, ?_⟩
  · intro t ht
    unfold trimBounds at ht
    dsimp only at ht
    have ht' := (Nat.lt_min.1 ht).1
    have ht'' := (Nat.lt_min.1 ht).2
    split at ht'
    · rename_i r hr
      split_ifs at ht' with hstart
      · obtain ⟨i, j, g1, g2, rfl⟩ := (hmem r).1 (List.mem_of_mem_head? hr)
        have hi : i = 0 := by
          simp only at hstart
          rcases Nat.mul_eq_zero.1 hstart with h | h <;> omega
        subst hi
        dsimp only at ht'
        split_ifs at ht' with hj
        · -- the whole signal is silent: trim_end is 0
          exfalso
          have hlast : rs.getLast? = some ⟨0 * (fs / 2), samples.length⟩ := by
            rw [if_pos hj] at hr
            cases hrs : rs with
            | nil => rw [hrs] at hr; simp at hr
            | cons r0 rs' =>
              rw [hrs] at hr hord
              simp at hr
              cases rs' with
              | nil => simp [hr]
              | cons r1 rs'' =>
                exfalso
                have := (List.pairwise_cons.1 hord).1 r1 (by simp)
                have h6 := hb r1 (by rw [hrs]; simp)
                rw [hr] at this; simp at this; omega
          rw [hlast] at ht''
          simp at ht''
        · exact hcov 0 j t g1 (by omega) ht'
      · omega
    · omega
  · intro t ht htn
    unfold trimBounds at ht
    dsimp only at ht
    have ht' := (Nat.le_trans (Nat.le_max_left _ _) ht)
    split at ht'
    · rename_i r hr
      split_ifs at ht' with hstop
      · obtain ⟨i, j, g1, g2, rfl⟩ := (hmem r).1 (List.mem_of_getLast? hr)
        dsimp only at hstop ht'
        have hj : j = numFrames samples.length fs (fs / 2) := by
          by_contra hj
          rw [if_neg hj] at hstop
          have hjl := g1.2.1
          have := numFrames_bound (n := samples.length) (fs := fs) hop0 (i := j) (by omega)
          rcases Nat.lt_or_ge samples.length fs with h | h
          · have := this.2 h
            have := g1.1
            omega
          · have := this.1 h; omega
        have hj1 := g1.1
        by_cases hc : t < (j - 1) * (fs / 2) + fs
        · left
          by_cases hc' : t < j * (fs / 2)
          · exact hcov i j t g1 ht' hc'
          · have := decisions_get.1 (g1.2.2.1 (j - 1) (by omega) (by omega))
            refine ⟨j - 1, (isFrame_iff h2).2 this.1, ?_, hc, by simpa [SilentFrame] using this.2.symm⟩
            have h8 : (j - 1) * (fs / 2) ≤ j * (fs / 2) := Nat.mul_le_mul_right _ (by omega)
            omega
        · right
          constructor
          · intro k hk
            have hk' := (isFrame_iff h2).1 hk
            have : k * (fs / 2) ≤ (j - 1) * (fs / 2) := Nat.mul_le_mul_right _ (by omega)
            omega
          · have hnf : ¬ IsFrame samples.length fs j := by
              rw [isFrame_iff h2]; omega
            unfold IsFrame at hnf
            have hjj : j * (fs / 2) = (j - 1) * (fs / 2) + fs / 2 := by
              have : j = (j - 1) + 1 := by omega
              conv_lhs => rw [this, Nat.add_mul, Nat.one_mul]
            omega
      · omega
    · omega

/-- **C02 (consequence).** When the signal length is exactly covered by the analysis frames the full
claim holds. -/
theorem C02_trimmed_is_silent_framed (M : Libm) (samples : List F32) (sr : ℕ) (det : Detector)
    (h0 : samples ≠ []) (hs : sr ≠ 0) (h2 : 2 ≤ det.frameSize)
    (hfull : samples.length < det.frameSize ∨
      ∃ k, samples.length = k * (det.frameSize / 2) + det.frameSize) :
    ∃ a b map, detectAndTrim M samples sr det = .ok ((samples.drop a).take (b - a), map) ∧
      a ≤ b ∧ b ≤ samples.length ∧
      ∀ t, t < samples.length → t < a ∨ b ≤ t →
        InSilentFrame samples det.frameSize (M.powf 10 (det.thresholdDb / 20)) t := by
  obtain ⟨a, b, map, e, h1, h3, hf, hb⟩ := C02_trimmed_is_silent_partial M samples sr det h0 hs h2
  refine ⟨a, b, map, e, h1, h3, ?_⟩
  rintro t htn (ht | ht)
  · exact hf t ht
  · rcases hb t ht htn with h | ⟨h, _⟩
    · exact h
    · exfalso
      rcases hfull with hfull | ⟨k, hk⟩
      · have := h 0 (.inr ⟨rfl, hfull⟩); omega
      · have := h k (.inl (by omega)); omega

/-- **C02 is violated by the code.** Five samples, frame size 4 (hop 2): the only analysed frame
covers samples 0-3; the full-scale sample 4 is in no frame, yet the whole signal is trimmed away.
(Any libm whose `powf` returns a value between 0 and 1 shows this.) -/
theorem C02_violated :
    detectAndTrim Libm.demo [0, 0, 0, 0, 1] 44100 ⟨-40, 500, 4⟩ = .ok ([], [(0, 5)]) ∧
    ¬ ∃ k, IsFrame 5 4 k ∧ k * 2 ≤ 4 ∧ 4 < k * 2 + 4 := by
  refine ⟨by decide +kernel, ?_⟩
  rintro ⟨k, h, h1, h2⟩
  unfold IsFrame at h
  omega

/-- **C03 (exact panic set).** `detect_and_trim` panics exactly for frame size 1 on non-empty audio
with a positive sample rate (the hop size is then 0 and is used as a divisor). -/
theorem C03_panic_iff (M : Libm) (samples : List F32) (sr : ℕ) (det : Detector) :
    detectAndTrim M samples sr det = R.panic ↔ samples ≠ [] ∧ sr ≠ 0 ∧ det.frameSize = 1 := by
  constructor
  · intro h
    by_cases h0 : samples = []
    · simp [detectAndTrim, h0] at h
    by_cases hs : sr = 0
    · simp [detectAndTrim, h0, hs] at h
    by_cases hf : det.frameSize = 0
    · simp [detectAndTrim, h0, hs, hf] at h
    by_cases hf1 : det.frameSize = 1
    · exact ⟨h0, hs, hf1⟩
    · obtain ⟨rs, e, _⟩ := detectAndTrim_unfold (M := M) h0 hs (det := det) (by omega)
      rw [e] at h; simp at h
  · rintro ⟨h0, hs, hf⟩
    simp [detectAndTrim, h0, hs, hf]

/-- **C03 (partial).** Full claim: never panics.  Proved: with a frame size other than 1 the call
returns `Ok` for a positive sample rate and frame size, and a proper error otherwise; the full claim
is refuted by `C03_violated`. -/
theorem C03_no_panic_partial (M : Libm) (samples : List F32) (sr : ℕ) (det : Detector)
    (hf : det.frameSize ≠ 1) :
    (∃ r, detectAndTrim M samples sr det = .ok r) ∨
    (detectAndTrim M samples sr det = R.err .invalidInput ∧ samples ≠ [] ∧ (sr = 0 ∨ det.frameSize = 0)) := by
  by_cases h0 : samples = []
  · left; exact ⟨_, by simp [detectAndTrim, h0]; rfl⟩
  by_cases hs : sr = 0
  · right; simp [detectAndTrim, h0, hs]
  by_cases hf0 : det.frameSize = 0
  · right; simp [detectAndTrim, h0, hs, hf0]
  · left
    obtain ⟨rs, e, _⟩ := detectAndTrim_unfold (M := M) h0 hs (det := det) (by omega)
    exact ⟨_, e⟩

/-- **C03 is violated by the code**: frame size 1 panics. -/
theorem C03_violated (M : Libm) : detectAndTrim M [0] 44100 ⟨-40, 500, 1⟩ = R.panic :=
  (C03_panic_iff M _ _ _).2 ⟨by simp, by simp, rfl⟩

/-! Non-vacuity: leading silence, sound, inner silence, sound, trailing silence (frame size 2, hop 1).
The call returns `Ok` with three regions, so the hypothesis of `C01_trim_contiguous` is met. -/
example : detectAndTrim Libm.demo [0, 0, 0, 0, 1, 1, 0, 0, 0, 0, 1, 0, 0, 0] 1 ⟨-40, 500, 2⟩ =
    .ok ([0, 1, 1, 0, 0, 0, 0, 1], [(0, 3), (6, 9), (11, 14)]) := by decide +kernel

/-! The hypotheses of `C01_silence_map_exact`, `C02_trimmed_is_silent_partial` and
`C02_trimmed_is_silent_framed` hold for the same signal (14 = 12 * 1 + 2). -/
example : ([0, 0, 0, 0, 1, 1, 0, 0, 0, 0, 1, 0, 0, 0] : List F32) ≠ [] ∧ (1 : ℕ) ≠ 0 ∧
    2 ≤ (⟨-40, 500, 2⟩ : Detector).frameSize ∧
    ∃ k, ([0, 0, 0, 0, 1, 1, 0, 0, 0, 0, 1, 0, 0, 0] : List F32).length = k * (2 / 2) + 2 :=
  ⟨by simp, by simp, by simp, 12, by simp⟩

/-! `C03_no_panic_partial`: both outcomes occur. -/
example : detectAndTrim Libm.demo [0, 1] 0 ⟨-40, 500, 2⟩ = R.err .invalidInput := by decide +kernel

end Verif.Props
