/-
Property theorems C83-C84: what `analyze_audio` accepts and which audio it analyses
(src/lib.rs lines 88-147, 1592-1602).
-/
import Verif.Model.Analyze
import Verif.Props.Silence
import Verif.Props.Normalization

namespace Verif.Props
open Verif Verif.Analyze

/-- trimming leaves nothing exactly when every analysed frame was measured as silent -/
theorem trim_empty_iff (M : Libm) (samples : List F32) (sr : ℕ) (det : Silence.Detector)
    (h0 : samples ≠ []) (hs : sr ≠ 0) (h2 : 2 ≤ det.frameSize) :
    ∃ x m, Silence.detectAndTrim M samples sr det = .ok (x, m) ∧
      (x = [] ↔ ∀ k, IsFrame samples.length det.frameSize k →
        SilentFrame samples det.frameSize (M.powf 10 (det.thresholdDb / 20)) k) := by
  obtain ⟨rs, he, hmem, hord, hb⟩ := detectAndTrim_unfold (M := M) h0 hs h2
  refine ⟨_, _, he, ?_⟩
  set fs := det.frameSize with hfs
  set S := decisions samples fs (M.powf 10 (det.thresholdDb / 20)) with hS
  set n := samples.length with hn
  have hn0 : 0 < n := List.length_pos_iff.2 h0
  have hop0 : 0 < fs / 2 := by omega
  have hlen : S.length = Silence.numFrames n fs (fs / 2) := by simp [hS, decisions, hn]
  have hnf : 0 < Silence.numFrames n fs (fs / 2) := by
    unfold Silence.numFrames; split_ifs
    · exact Nat.succ_pos _
    · exact Nat.one_pos
  constructor
  · intro hx k hk
    by_contra hc
    have hkn := (isFrame_iff h2).1 hk
    have hSk : S[k]? = some false := by
      rw [hS, decisions_get]
      exact ⟨hkn, by simpa [SilentFrame] using hc⟩
    have hkb : k * (fs / 2) < n ∧ (k + 1 < Silence.numFrames n fs (fs / 2) → (k + 1) * (fs / 2) ≤ n) := by
      rcases hk with h | ⟨rfl, h⟩
      · constructor
        · omega
        · intro h'
          have h3 := (isFrame_iff (n := n) h2).2 h'
          rcases h3 with h3 | h3 <;> omega
      · constructor
        · omega
        · intro h'
          have h3 := (isFrame_iff (n := n) h2).2 h'
          rcases h3 with h3 | h3 <;> omega
    -- the trimmed part contains the hop of the loud frame
    have ha : (Silence.trimBounds n rs).1 ≤ k * (fs / 2) ∧ k * (fs / 2) < (Silence.trimBounds n rs).2 := by
      have h1 : ∀ r, rs.head? = some r → r.start = 0 → r.stop ≤ k * (fs / 2) := by
        intro r hr hst
        obtain ⟨i, j, hrun, _, rfl⟩ := (hmem r).1 (List.mem_of_mem_head? hr)
        dsimp only at hst ⊢
        have hi : i = 0 := by
          rcases Nat.eq_zero_or_pos i with h | h
          · exact h
          · have := Nat.mul_pos h hop0; omega
        subst hi
        have hjk : j ≤ k := by
          by_contra hc'
          have := hrun.2.2.1 k (by omega) (by omega)
          rw [hSk] at this; simp at this
        rw [if_neg (by omega)]
        exact Nat.mul_le_mul_right _ hjk
      have h2' : ∀ r, rs.getLast? = some r → r.stop = n → k * (fs / 2) < r.start := by
        intro r hr hst
        obtain ⟨i, j, hrun, _, rfl⟩ := (hmem r).1 (List.mem_of_getLast? hr)
        dsimp only at hst ⊢
        have hj : j = Silence.numFrames n fs (fs / 2) := by
          by_contra hc'
          rw [if_neg hc'] at hst
          have := hrun.2.1
          have h3 := (isFrame_iff (n := n) (k := j) h2).2 (by omega)
          rcases h3 with h3 | ⟨h3, h4⟩
          · omega
          · subst h3; omega
        have hik : k < i := by
          by_contra hc'
          have := hrun.2.2.1 k (by omega) (by omega)
          rw [hSk] at this; simp at this
        exact (Nat.mul_lt_mul_right hop0).2 hik
      have hA : (match rs.head? with | some r => if r.start = 0 then r.stop else 0 | none => 0) ≤ k * (fs / 2) := by
        rcases e : rs.head? with _ | r
        · simp
        · dsimp only; split_ifs with h
          · exact h1 r e h
          · omega
      have hB : k * (fs / 2) < (match rs.getLast? with | some r => if r.stop = n then r.start else n | none => n) := by
        rcases e : rs.getLast? with _ | r
        · exact hkb.1
        · dsimp only; split_ifs with h
          · exact h2' r e h
          · exact hkb.1
      unfold Silence.trimBounds
      dsimp only
      constructor
      · exact Nat.le_trans (Nat.min_le_left _ _) hA
      · exact Nat.lt_of_lt_of_le hB (Nat.le_max_left _ _)
    have := congrArg List.length hx
    simp only [List.length_take, List.length_drop, List.length_nil] at this
    omega
  · intro hall
    have hrun : Silence.IsRun S 0 S.length := by
      refine ⟨by omega, Nat.le_refl _, ?_, .inl rfl, .inl rfl⟩
      intro f _ hf
      rw [hS, decisions_get]
      have h' : f < Silence.numFrames n fs (fs / 2) := by omega
      exact ⟨h', by simpa [SilentFrame] using hall f ((isFrame_iff h2).2 h')⟩
    have hR : (⟨0, n⟩ : Silence.Region) ∈ rs := by
      rw [hmem]
      refine ⟨0, S.length, hrun, .inl rfl, ?_⟩
      rw [if_pos hlen]; simp
    have honly : ∀ r ∈ rs, r = ⟨0, n⟩ := by
      intro r hr
      by_contra hne
      have hr2 := hb r hr
      have hp := List.pairwise_iff_getElem.1 hord
      obtain ⟨i, hi, ei⟩ := List.getElem_of_mem hr
      obtain ⟨j, hj, ej⟩ := List.getElem_of_mem hR
      rcases Nat.lt_trichotomy i j with h | h | h
      · have := hp i j hi hj h; rw [ei, ej] at this; simp at this
      · subst h; exact hne (ei.symm.trans ej)
      · have := hp j i hj hi h; rw [ei, ej] at this; dsimp only at this; omega
    have hne : rs ≠ [] := List.ne_nil_of_mem hR
    have hh : rs.head? = some ⟨0, n⟩ := by
      rcases e : rs.head? with _ | r
      · exact absurd (List.head?_eq_none_iff.1 e) hne
      · rw [honly r (List.mem_of_mem_head? e)]
    have hl : rs.getLast? = some ⟨0, n⟩ := by
      rcases e : rs.getLast? with _ | r
      · exact absurd (List.getLast?_eq_none_iff.1 e) hne
      · rw [honly r (List.mem_of_getLast? e)]
    have : Silence.trimBounds n rs = (0, 0) := by
      unfold Silence.trimBounds
      rw [hh, hl]
      simp
    rw [this]; rfl

/-- **C83 (bad arguments).** Empty audio and a zero sample rate are refused with `InvalidInput`, whatever the
configuration. -/
theorem C83_rejects (L : Lib) (c : Config) (samples : List F32) (sr : ℕ) (h : samples = [] ∨ sr = 0) :
    analyze L c samples sr = R.err .invalidInput := by
  unfold analyze
  by_cases h0 : samples = []
  · rw [if_pos h0]
  · rw [if_neg h0, if_pos (h.resolve_left h0)]

/-- **C83 (silence).** With trimming on, `ProcessingError` for silence is returned when every analysed frame of the
normalised audio is below the threshold; otherwise a non-empty contiguous piece of it is analysed. -/
theorem C83_silence (L : Lib) (c : Config) (samples y : List F32) (sr : ℕ) (h0 : samples ≠ []) (hs : sr ≠ 0)
    (h2 : 2 ≤ c.frame) (ht : c.enableSilenceTrimming = true) (hy : normalized L c samples sr = .ok y) (hy0 : y ≠ []) :
    ((∀ k, IsFrame y.length c.frame k → SilentFrame y c.frame (L.M.powf 10 (c.minAmplitudeDb / 20)) k) →
      analyze L c samples sr = R.err .processing) ∧
    (∀ k, IsFrame y.length c.frame k → ¬ SilentFrame y c.frame (L.M.powf 10 (c.minAmplitudeDb / 20)) k →
      ∃ a b, a < b ∧ b ≤ y.length ∧ analyze L c samples sr = analyzeTrimmed L c ((y.drop a).take (b - a)) sr) := by
  obtain ⟨x, m, he, hiff⟩ := trim_empty_iff L.M y sr ⟨c.minAmplitudeDb, 500, c.frame⟩ hy0 hs h2
  have hA : analyze L c samples sr = if x = [] then R.err .processing else analyzeTrimmed L c x sr := by
    unfold analyze
    rw [if_neg h0, if_neg hs, hy]
    simp only [R.ok_bind]
    unfold trimmed
    rw [if_pos ht, he]
    rfl
  constructor
  · intro hall
    rw [hA, if_pos (hiff.2 hall)]
  · intro k hk hl
    have hx : x ≠ [] := fun h => hl (hiff.1 h k hk)
    rw [hA, if_neg hx]
    obtain ⟨⟨a, b, hab, hb, rfl⟩, _⟩ := C01_trim_contiguous _ _ _ _ _ _ he
    refine ⟨a, b, ?_, hb, rfl⟩
    by_contra hc
    exact hx (by rw [show b - a = 0 from by omega]; simp)

theorem zero_rms {l : List F32} (h : ∀ x ∈ l, x = 0) : Silence.frameRms l = 0 := by
  have e : l = List.replicate l.length 0 := List.eq_replicate_of_mem h
  have hz : ∀ n : ℕ, F32.sum ((List.replicate n (0 : F32)).map (fun x => x * x)) = 0 := by
    intro n
    rw [List.map_replicate, show ((0 : F32) * 0) = 0 from by decide +kernel]
    unfold F32.sum
    induction n with
    | zero => rfl
    | succ n ih => rw [List.replicate_succ, List.foldl_cons, show ((0 : F32) + 0) = 0 from by decide +kernel]; exact ih
  unfold Silence.frameRms
  split_ifs with hl
  · rw [e, hz, List.length_replicate]
    have hp := F32.ofNat_pos hl
    have hd : (0 : F32) / F32.ofNat l.length = 0 := by
      rcases hq : F32.ofNat l.length with _ | s | ⟨q, hg⟩
      · rw [hq] at hp; exact absurd hp (by decide +kernel)
      · rw [hq] at hp
        cases s
        · decide +kernel
        · exact absurd hp (by decide +kernel)
      · rw [hq, F32.zero_def, F32.fin_lt_fin] at hp
        rw [F32.zero_def, F32.div_fin hp.ne', zero_div]
        exact F32.rnd_zero.trans F32.zero_def
    rw [hd]; decide +kernel
  · rfl

/-- **C83 (digital silence).** The documentation's own example, 30 seconds of zeros, is not analysed: any all-zero
signal gives `ProcessingError` with trimming on, with peak normalisation or without normalisation.  The only thing
asked of `powf` is that the threshold is not negative. -/
theorem C83_zeros (L : Lib) (c : Config) (n sr : ℕ) (hn : n ≠ 0) (hs : sr ≠ 0) (h2 : 2 ≤ c.frame)
    (ht : c.enableSilenceTrimming = true) (hm : c.enableNormalization = false ∨ c.normalization = .peak)
    (hp : 0 ≤ L.M.powf 10 (c.minAmplitudeDb / 20)) :
    analyze L c (List.replicate n 0) sr = R.err .processing := by
  have h0 : List.replicate n (0 : F32) ≠ [] := by simpa using hn
  have hy : normalized L c (List.replicate n 0) sr = .ok (List.replicate n 0) := by
    unfold normalized
    split_ifs with he
    · obtain ⟨m, e, _⟩ := C04_silent_unchanged L.M (List.replicate n 0) ⟨-14, 1, c.normalization⟩ (F32.ofNat sr)
        (hm.resolve_left (by simp [he])) h0 (fun x hx => .inr (by rw [List.eq_of_mem_replicate hx]; decide +kernel))
      rw [e]; rfl
    · rfl
  refine (C83_silence L c _ _ sr h0 hs h2 ht hy h0).1 ?_
  intro k _
  unfold SilentFrame Silence.frame
  rw [zero_rms (fun x hx => List.eq_of_mem_replicate (List.mem_of_mem_drop (List.mem_of_mem_take hx)))]
  exact hp

/-- the same configuration with other values for the two preprocessing switches, the reference pitch and the
median-key settings -/
abbrev resetTo (c : Config) (trim norm : Bool) (pitch : F32) (median : Bool) (len hop segs : ℕ) : Config :=
  { c with enableSilenceTrimming := trim, enableNormalization := norm, centerFrequency := pitch, enableMedian := median,
           medianLen := len, medianHop := hop, medianMin := segs }

section
variable (L : Lib) (c : Config) (t n : Bool) (f : F32) (m : Bool) (l h k : ℕ)

theorem sw_onsets : onsets (resetTo c t n f m l h k) = onsets c := rfl
theorem sw_legacy : legacy L (resetTo c t n f m l h k) = legacy L c := rfl
theorem sw_afterMulti : afterMulti L (resetTo c t n f m l h k) = afterMulti L c := rfl
theorem sw_afterPerc : afterPerc L (resetTo c t n f m l h k) = afterPerc L c := rfl
theorem sw_tempoMulti : tempoMulti L (resetTo c t n f m l h k) = tempoMulti L c := by
  unfold tempoMulti; rw [sw_afterMulti, sw_afterPerc]; rfl
theorem sw_tempo : tempo L (resetTo c t n f m l h k) = tempo L c := by
  unfold tempo; rw [sw_tempoMulti]; rfl
theorem sw_chroma : chromaCall L (resetTo c t n f m l h k) = chromaCall L c := rfl
theorem sw_keyCall : keyCall L (resetTo c t n f m l h k) = keyCall L c := rfl
theorem sw_weights (M : Libm) : frameWeights M (resetTo c t n f m l h k) = frameWeights M c := rfl
theorem sw_keyOf : keyOf L (resetTo c t n f m l h k) = keyOf L c := by
  unfold keyOf; rw [sw_keyCall, sw_weights]; rfl
theorem sw_keyPart : keyPart L (resetTo c t n f m l h k) = keyPart L c := by
  unfold keyPart; rw [sw_keyOf, sw_chroma]; rfl

/-- what follows preprocessing does not look at the preprocessing switches -/
theorem analyzeTrimmed_switches (x : List F32) (sr : ℕ) : analyzeTrimmed L (resetTo c t n f m l h k) x sr = analyzeTrimmed L c x sr := by
  unfold analyzeTrimmed; rw [sw_onsets, sw_legacy, sw_tempo, sw_keyPart]

end

/-- **C84 (what the times refer to).** With trimming, the result is the one of the kept piece analysed on its own,
whatever was cut off in front of it: beat times count from the first kept sample and the duration is that of the kept
piece.  Missing from the full claim: both should refer to the audio that was passed in. -/
theorem C84_factor_partial (L : Lib) (c : Config) (samples y x : List F32) (m : List (ℕ × ℕ)) (sr : ℕ) (h0 : samples ≠ [])
    (hs : sr ≠ 0) (ht : c.enableSilenceTrimming = true) (hy : normalized L c samples sr = .ok y)
    (hx : Silence.detectAndTrim L.M y sr ⟨c.minAmplitudeDb, 500, c.frame⟩ = .ok (x, m)) (hx0 : x ≠ []) :
    analyze L c samples sr =
      analyze L { c with enableSilenceTrimming := false, enableNormalization := false } x sr ∧
    ∀ r, analyze L c samples sr = .ok r → r.duration = F32.ofNat x.length / F32.ofNat sr ∧ r.sampleRate = sr := by
  have hA : analyze L c samples sr = analyzeTrimmed L c x sr := by
    unfold analyze
    rw [if_neg h0, if_neg hs, hy]
    simp only [R.ok_bind]
    unfold trimmed
    rw [if_pos ht, hx]
    simp only [R.ok_bind, R.pure_eq_ok]
    rw [if_neg hx0]
  constructor
  · rw [hA]
    unfold analyze
    rw [if_neg hx0, if_neg hs]
    have e1 : normalized L { c with enableSilenceTrimming := false, enableNormalization := false } x sr = .ok x := rfl
    have e2 : trimmed L { c with enableSilenceTrimming := false, enableNormalization := false } x sr = .ok x := rfl
    rw [e1]; simp only [R.ok_bind]; rw [e2]; simp only [R.ok_bind]
    rw [if_neg hx0]
    exact (analyzeTrimmed_switches L c false false c.centerFrequency c.enableMedian c.medianLen c.medianHop c.medianMin x sr).symm
  · intro r hr
    rw [hA] at hr
    unfold analyzeTrimmed at hr
    simp only [R.bind_eq_ok] at hr
    obtain ⟨_, _, _, _, _, _, _, _, _, _, _, _, _, _, hr⟩ := hr
    cases hr
    exact ⟨rfl, rfl⟩

/-- an FFT that reports nothing, and a small library -/
def quietLib : Lib :=
  ⟨Libm.demo, fun l => l.map (fun x => (x, 0)), fun _ _ => (0, 0), fun _ _ => 0, fun x _ => x, fun _ l => l, id, id, fun _ => [], 100⟩

/-- six beats, one per second at 16 samples per second -/
def pulses : List F32 :=
  (List.replicate 6 [(0.9 : F32), 0.9, 0.9, 0.9, 0.9, 0.9, 0.9, 0.9, 0.1, 0.1, 0.1, 0.1, 0.1, 0.1, 0.1, 0.1]).flatten

def pulseConfig : Config :=
  { frame := 4, hop := 2, enableKeyStft := false, forceLegacy := true, enableNormalization := false, minBpm := 50, maxBpm := 70
    enableOnsetConsensus := false }

theorem pulses_trim (k : ℕ) (hk : k = 16 ∨ k = 32) :
    ∃ m, Silence.detectAndTrim quietLib.M (List.replicate k 0 ++ pulses) 16 ⟨-40, 500, 4⟩ = .ok ([0, 0] ++ pulses, m) := by
  have h : ∀ k', k' = 16 ∨ k' = 32 → (match Silence.detectAndTrim quietLib.M (List.replicate k' 0 ++ pulses) 16 ⟨-40, 500, 4⟩ with
      | .ok r => decide (r.1 = [0, 0] ++ pulses) | _ => false) = true := by
    rintro k' (rfl | rfl) <;> decide +kernel
  have h' := h k hk
  rcases e : Silence.detectAndTrim quietLib.M (List.replicate k 0 ++ pulses) 16 ⟨-40, 500, 4⟩ with err | r
  · rw [e] at h'; simp at h'
  · rw [e] at h'
    have := of_decide_eq_true h'
    exact ⟨r.2, by rw [← this]⟩

theorem pulse_run : (match analyze quietLib pulseConfig (List.replicate 16 0 ++ pulses) 16 with
    | .ok r => decide (r.grid.beats ≠ []) | _ => false) = true := by decide +kernel

/-- **C84 violated.** Delaying the audio by one second of silence leaves every reported beat time and the duration
where they were. -/
theorem C84_violated : ∃ (L : Lib) (c : Config) (audio : List F32) (sr : ℕ) (r : Result),
    analyze L c audio sr = .ok r ∧ analyze L c (List.replicate sr 0 ++ audio) sr = .ok r ∧ r.grid.beats ≠ [] ∧
    r.duration < F32.ofNat audio.length / F32.ofNat sr := by
  have hx0 : ([0, 0] ++ pulses : List F32) ≠ [] := by simp
  have run := pulse_run
  rcases e : analyze quietLib pulseConfig (List.replicate 16 0 ++ pulses) 16 with err | r
  · rw [e] at run; simp at run
  rw [e] at run
  obtain ⟨m1, h1⟩ := pulses_trim 16 (.inl rfl)
  obtain ⟨m2, h2⟩ := pulses_trim 32 (.inr rfl)
  have f1 := C84_factor_partial quietLib pulseConfig (List.replicate 16 0 ++ pulses) _ _ m1 16 (by simp [pulses]) (by decide) rfl rfl h1 hx0
  have f2 := C84_factor_partial quietLib pulseConfig (List.replicate 32 0 ++ pulses) _ _ m2 16 (by simp [pulses]) (by decide) rfl rfl h2 hx0
  refine ⟨quietLib, pulseConfig, List.replicate 16 0 ++ pulses, 16, r, e, ?_, of_decide_eq_true run, ?_⟩
  · rw [← List.append_assoc, ← List.replicate_add, f2.1, ← f1.1, e]
  · rw [(f1.2 r e).1]; decide +kernel

-- the hypotheses of C83 and C84 are met by this audio: it has a loud frame, and it is trimmed to a shorter piece
example : analyze quietLib pulseConfig [] 16 = R.err .invalidInput ∧ analyze quietLib pulseConfig pulses 0 = R.err .invalidInput :=
  ⟨C83_rejects _ _ _ _ (.inl rfl), C83_rejects _ _ _ _ (.inr rfl)⟩

example : analyze quietLib {} (List.replicate (44100 * 30) 0) 44100 = R.err .processing :=
  C83_zeros quietLib {} _ _ (by decide) (by decide) (by decide) rfl (.inr rfl) (by decide +kernel)

example : ∃ a b, a < b ∧ b ≤ (List.replicate 16 0 ++ pulses).length ∧ analyze quietLib pulseConfig (List.replicate 16 0 ++ pulses) 16 =
    analyzeTrimmed quietLib pulseConfig (((List.replicate 16 0 ++ pulses).drop a).take (b - a)) 16 :=
  (C83_silence quietLib pulseConfig (List.replicate 16 0 ++ pulses) _ 16 (by simp [pulses]) (by decide) (by decide) rfl rfl
    (by simp [pulses])).2 10 (.inl (by decide)) (by unfold SilentFrame; decide +kernel)

/-- **C85 violated.** `center_frequency` (documented as the reference pitch of the chroma) and the four median-key
settings have no effect whatever on the analysis. -/
theorem C85_violated (L : Lib) (c : Config) (pitch : F32) (median : Bool) (len hop segs : ℕ) (samples : List F32) (sr : ℕ) :
    analyze L { c with centerFrequency := pitch, enableMedian := median, medianLen := len, medianHop := hop, medianMin := segs }
      samples sr = analyze L c samples sr := by
  have h := fun x => analyzeTrimmed_switches L c c.enableSilenceTrimming c.enableNormalization pitch median len hop segs x sr
  unfold analyze
  refine if_congr Iff.rfl rfl (if_congr Iff.rfl rfl ?_)
  have e1 : normalized L { c with centerFrequency := pitch, enableMedian := median, medianLen := len, medianHop := hop, medianMin := segs } =
    normalized L c := rfl
  have e2 : trimmed L { c with centerFrequency := pitch, enableMedian := median, medianLen := len, medianHop := hop, medianMin := segs } =
    trimmed L c := rfl
  rw [e1, e2]
  exact congrArg _ (funext fun y => congrArg _ (funext fun x => if_congr Iff.rfl rfl (h x)))

end Verif.Props
