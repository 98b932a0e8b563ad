/-
Property theorems C125: settings the analysis cannot use are reported as errors (src/lib.rs analyze_audio, src/config.rs).
-/
import Verif.Props.Analyze
import Verif.Props.Estimators

namespace Verif.Props
open Verif Verif.Analyze Verif.F32

/-- Preprocessing is over: what follows is the analysis of `x`. -/
theorem analyze_of_trimmed {L : Lib} {c : Config} {samples y x : List F32} {sr : ℕ} (h0 : samples ≠ []) (hs : sr ≠ 0)
    (hy : normalized L c samples sr = .ok y) (hx : trimmed L c y sr = .ok x) (hx0 : x ≠ []) :
    analyze L c samples sr = analyzeTrimmed L c x sr := by
  unfold analyze
  rw [if_neg h0, if_neg hs, hy]
  simp only [R.ok_bind]
  rw [hx]
  simp only [R.ok_bind]
  rw [if_neg hx0]

/-- **C125, frames (partial).** Full claim: every unusable setting is answered with `InvalidInput`.  Here: a frame size of 0
always is, and so is a hop size of 0 whenever there is audio left after trimming.  The full claim is false: see the
`C125_violated` theorems. -/
theorem C125_frames_partial (L : Lib) (c : Config) (samples y : List F32) (sr : ℕ) (h0 : samples ≠ []) (hs : sr ≠ 0)
    (hy : normalized L c samples sr = .ok y) (hy0 : y ≠ []) :
    (c.frame = 0 → analyze L c samples sr = R.err .invalidInput) ∧
    (c.hop = 0 → ∀ x, trimmed L c y sr = .ok x → x ≠ [] → analyze L c samples sr = R.err .invalidInput) := by
  constructor
  · intro hf
    by_cases ht : c.enableSilenceTrimming = true
    · unfold analyze
      rw [if_neg h0, if_neg hs, hy]
      simp only [R.ok_bind]
      unfold trimmed Silence.detectAndTrim
      rw [if_pos ht, if_neg hy0, if_neg hs, if_pos hf]
      rfl
    · have hx : trimmed L c y sr = .ok y := by unfold trimmed; rw [if_neg ht]
      rw [analyze_of_trimmed h0 hs hy hx hy0]
      unfold analyzeTrimmed Onset.energyFluxOnsets
      rw [if_neg hy0, if_pos hf]
      rfl
  · intro hh x hx hx0
    rw [analyze_of_trimmed h0 hs hy hx hx0]
    unfold analyzeTrimmed Onset.energyFluxOnsets
    rw [if_neg hx0]
    by_cases hf : c.frame = 0
    · rw [if_pos hf]; rfl
    · rw [if_neg hf, if_pos hh]; rfl

example : pulses ≠ [] ∧ normalized quietLib { pulseConfig with hop := 0 } pulses 16 = .ok pulses := by
  refine ⟨by simp [pulses], rfl⟩

/-- **C125, tempo range (partial).** If at least two onsets were found, a tempo range that is not positive or not increasing is
answered with `InvalidInput`, and with a BPM resolution that is not positive there is no result.  NaN settings pass these
tests, and with fewer onsets nothing is tested (`C125_violated_nan`, `C125_violated_range`). -/
theorem C125_range_partial (L : Lib) (c : Config) (samples y x : List F32) (sr : ℕ) (h0 : samples ≠ []) (hs : sr ≠ 0)
    (hy : normalized L c samples sr = .ok y) (hx : trimmed L c y sr = .ok x) (hx0 : x ≠ []) (energy ons : List ℕ)
    (spec : List (List F32)) (he : Onset.energyFluxOnsets L.M x c.frame c.hop (-20) = .ok energy)
    (hsp : Chroma.computeStft L.M L.sfft x c.frame c.hop = .ok spec)
    (ho : onsets c energy spec x.length sr = .ok ons) (h2 : 2 ≤ ons.length) :
    (c.minBpm ≤ 0 ∨ c.maxBpm ≤ 0 ∨ c.maxBpm ≤ c.minBpm → analyze L c samples sr = R.err .invalidInput) ∧
    (c.bpmRes ≤ 0 → ∀ r, analyze L c samples sr ≠ .ok r) := by
  have hA : analyze L c samples sr = (do
      let leg ← legacy L c ons sr
      let t ← tempo L c x spec sr
      let bpm := Pipeline.selectBpm c.forceLegacy c.enableFusion t.est leg
      let g ← beats L bpm.1 bpm.2 ons sr
      let k ← keyPart L c x spec sr g.1.beats
      pure (report L x.length sr energy t bpm g k)) := by
    rw [analyze_of_trimmed h0 hs hy hx hx0]
    unfold analyzeTrimmed
    rw [he, R.ok_bind, hsp, R.ok_bind, ho, R.ok_bind]
  have hne : ons ≠ [] := by rintro rfl; simp at h2
  have hhop : c.hop ≠ 0 := by
    intro hh
    unfold Onset.energyFluxOnsets at he
    rw [if_neg hx0] at he
    by_cases hf : c.frame = 0
    · rw [if_pos hf] at he; cases he
    · rw [if_neg hf, if_pos hh] at he; cases he
  constructor
  · intro h
    rw [hA]
    unfold legacy Period.estimateBpm Period.estAutocorr
    rw [if_pos h2, if_neg hne, if_neg hs, if_neg hhop, if_pos h]
    rfl
  · intro h r hr
    rw [hA] at hr
    obtain ⟨leg, hl, -⟩ := R.bind_eq_ok.1 hr
    unfold legacy at hl
    rw [if_pos h2] at hl
    unfold Period.estimateBpm at hl
    obtain ⟨ac, -, hl⟩ := R.bind_eq_ok.1 hl
    obtain ⟨cb, hc, -⟩ := R.bind_eq_ok.1 hl
    unfold Period.estComb at hc
    rw [if_neg hne, if_neg hs] at hc
    by_cases h3 : c.minBpm ≤ 0 ∨ c.maxBpm ≤ 0 ∨ c.maxBpm ≤ c.minBpm
    · rw [if_pos h3] at hc; cases hc
    · rw [if_neg h3, if_pos h] at hc; cases hc

/-- the hypotheses, with a range that runs backwards -/
def backwards : Config := { pulseConfig with minBpm := 70, maxBpm := 50, enableSilenceTrimming := false }

example : (match Onset.energyFluxOnsets quietLib.M pulses 4 2 (-20), Chroma.computeStft quietLib.M quietLib.sfft pulses 4 2 with
    | .ok e, .ok s => (match onsets backwards e s pulses.length 16 with | .ok o => decide (2 ≤ o.length) | _ => false)
    | _, _ => false) = true := by decide +kernel

/-- **C125 violated (frame size 1).** With silence trimming (the default) a frame size of 1 makes the analysis of every audio
panic: the trimmer divides by its hop `frame_size / 2`. -/
theorem C125_violated_frame (L : Lib) (c : Config) (samples y : List F32) (sr : ℕ) (h0 : samples ≠ []) (hs : sr ≠ 0)
    (hf : c.frame = 1) (ht : c.enableSilenceTrimming = true) (hy : normalized L c samples sr = .ok y) (hy0 : y ≠ []) :
    analyze L c samples sr = R.panic := by
  unfold analyze
  rw [if_neg h0, if_neg hs, hy]
  simp only [R.ok_bind]
  unfold trimmed Silence.detectAndTrim
  rw [if_pos ht, if_neg hy0, if_neg hs]
  dsimp only
  rw [if_neg (by rw [hf]; decide), if_pos (by rw [hf])]
  rfl

example : normalized quietLib { pulseConfig with frame := 1 } pulses 16 = .ok pulses := rfl

/-- the outcome of an analysis, without the numbers -/
def outcome (r : R Result) : Option Fail := match r with
  | .ok _ => none
  | .error f => some f

/-- a sound that is switched on and off, at a rate the tuning estimate can use -/
def tuned (m : F32) : Config :=
  { pulseConfig with enableSilenceTrimming := false, enableTuning := true, enableHpcp := false, tuningMax := m }

/-- **C125 violated (NaN).** A NaN limit for the tuning estimate passes every test and makes the analysis panic, while the default
limit works. -/
theorem C125_violated_tuning : ∃ (L : Lib) (c : Config) (audio : List F32) (sr : ℕ),
    outcome (analyze L { c with tuningMax := 0.08 } audio sr) = none ∧
    outcome (analyze L { c with tuningMax := nan } audio sr) = some .panic :=
  ⟨quietLib, tuned 0.08, List.replicate 4 0.5, 1000, by decide +kernel, by decide +kernel⟩

/-- **C125 violated (NaN).** NaN as tempo resolution is accepted, and a result is returned. -/
theorem C125_violated_nan : ∃ (L : Lib) (c : Config) (audio : List F32) (sr : ℕ),
    c.bpmRes = nan ∧ outcome (analyze L c audio sr) = none :=
  ⟨quietLib, { pulseConfig with bpmRes := nan, enableSilenceTrimming := false, enableKeyStft := true }, pulses.take 36, 16, rfl, by decide +kernel⟩

theorem comb_stuck {onsets : List ℕ} {sr : ℕ} {minB maxB res sc : F32} (h1 : minB ≤ maxB + Period.EPS) (h2 : minB + res = minB)
    (h3 : Period.score onsets sr minB (F32.clamp (0.1 * (120 / minB)) 0.05 0.15) = .ok sc) (fuel : ℕ) :
    Period.combLoop onsets sr maxB res fuel minB = R.outOfFuel := by
  induction fuel with
  | zero => unfold Period.combLoop; rw [if_pos h1]
  | succ n ih => unfold Period.combLoop; rw [if_pos h1, h2, ih]; dsimp only; rw [h3]; rfl

theorem estimate_stuck {M : Libm} {ifft : List F32 → ℕ → F32} {fuel : ℕ} {ons : List ℕ} {sr hop : ℕ} {minB maxB res : F32}
    {g : Option Period.Guard} {ac : List Period.Cand} (h1 : Period.estAutocorr ifft ons sr hop minB maxB = .ok ac)
    (h2 : Period.estComb fuel ons sr minB maxB res = R.outOfFuel) :
    Period.estimateBpm M ifft fuel ons sr hop minB maxB res g = R.outOfFuel := by
  unfold Period.estimateBpm
  rw [h1, R.ok_bind, h2]
  rfl

theorem trimmed_stuck {L : Lib} {c : Config} {x : List F32} {sr : ℕ} {energy ons : List ℕ} {spec : List (List F32)}
    (h1 : Onset.energyFluxOnsets L.M x c.frame c.hop (-20) = .ok energy)
    (h2 : Chroma.computeStft L.M L.sfft x c.frame c.hop = .ok spec) (h3 : onsets c energy spec x.length sr = .ok ons)
    (h4 : legacy L c ons sr = R.outOfFuel) : analyzeTrimmed L c x sr = R.outOfFuel := by
  unfold analyzeTrimmed
  rw [h1, R.ok_bind, h2, R.ok_bind, h3, R.ok_bind, h4]
  rfl

def stuckConfig : Config := { pulseConfig with bpmRes := 1e-6, enableSilenceTrimming := false }

/-- **C125 violated (resolution).** With a tempo resolution below the spacing of `f32` numbers the whole analysis never returns: it
is still running after any number of steps. -/
theorem C125_violated_hang : ∃ (L : Lib) (c : Config) (audio : List F32) (sr : ℕ), 0 < c.bpmRes ∧
    ∀ fuel, analyze { L with fuel := fuel } c audio sr = R.outOfFuel := by
  refine ⟨quietLib, stuckConfig, pulses.take 36, 16, by decide +kernel, fun fuel => ?_⟩
  have h0 : pulses.take 36 ≠ [] := by simp [pulses]
  rw [analyze_of_trimmed (y := pulses.take 36) (x := pulses.take 36) h0 (by decide) rfl rfl h0]
  have e1 : Onset.energyFluxOnsets quietLib.M (pulses.take 36) 4 2 (-20) = .ok [14, 30] := by decide +kernel
  have e2 : ∃ spec, Chroma.computeStft quietLib.M quietLib.sfft (pulses.take 36) 4 2 = .ok spec := by
    have h : (match Chroma.computeStft quietLib.M quietLib.sfft (pulses.take 36) 4 2 with | .ok _ => true | _ => false) = true := by
      decide +kernel
    revert h
    cases Chroma.computeStft quietLib.M quietLib.sfft (pulses.take 36) 4 2 with
    | ok s => exact fun _ => ⟨s, rfl⟩
    | error e => exact fun h => by cases h
  obtain ⟨spec, e2⟩ := e2
  have e3 : ∃ ac, Period.estAutocorr quietLib.ifft [14, 30] 16 2 50 70 = .ok ac := by
    have h : (match Period.estAutocorr quietLib.ifft [14, 30] 16 2 50 70 with | .ok _ => true | _ => false) = true := by
      decide +kernel
    revert h
    cases Period.estAutocorr quietLib.ifft [14, 30] 16 2 50 70 with
    | ok s => exact fun _ => ⟨s, rfl⟩
    | error e => exact fun h => by cases h
  obtain ⟨ac, e3⟩ := e3
  have e4 : Period.score (sortNat [14, 30]) 16 50 (F32.clamp (0.1 * (120 / 50)) 0.05 0.15) = .ok 0 := by decide +kernel
  have e5 : Period.estComb fuel [14, 30] 16 50 70 1e-6 = R.outOfFuel := by
    unfold Period.estComb
    rw [if_neg (by simp), if_neg (by simp), if_neg (by decide +kernel), if_neg (by decide +kernel), if_neg (by simp),
      comb_stuck (by decide +kernel) (by decide +kernel) e4]
    rfl
  have e6 : legacy { quietLib with fuel := fuel } stuckConfig [14, 30] 16 = R.outOfFuel := by
    unfold legacy
    rw [if_pos (by decide)]
    exact estimate_stuck e3 e5
  exact trimmed_stuck e1 e2 rfl e6

/-- **C125 violated (range).** A tempo range that runs backwards is accepted when the audio has no onsets: the tempogram's
`InvalidInput` is swallowed and the tempo is reported as 0. -/
theorem C125_violated_range : ∃ (L : Lib) (c : Config) (audio : List F32) (sr : ℕ),
    c.maxBpm < c.minBpm ∧ c.forceLegacy = false ∧
    (match analyze L c audio sr with | .ok r => decide (r.bpm = 0) | _ => false) = true :=
  ⟨quietLib, { backwards with forceLegacy := false, enableKeyStft := true }, List.replicate 8 0.5, 16, by decide +kernel, rfl, by decide +kernel⟩

end Verif.Props
