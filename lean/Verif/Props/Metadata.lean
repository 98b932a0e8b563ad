import Verif.Props.ReportGrid
import Verif.Props.Analyze

/-!
# C103: what the metadata say about the onset methods

`AnalysisMetadata` has a field `methods_used` ("Methods used") and a field `onset_method_consensus` ("Onset method
consensus score").
-/

namespace Verif.Props
open Verif F32 Verif.Analyze

/-- the onset settings of a configuration replaced: whether the four detectors vote at all, and how -/
def otherVote (c : Config) (on hpss : Bool) (pct : F32) (margin tol : ℕ) (w : ℕ → F32) : Config :=
  { c with enableOnsetConsensus := on, enableHpssOnsets := hpss, onsetPercentile := pct, hpssMargin := margin,
           onsetTolMs := tol, onsetWeights := w }

/-- **C103, the part that holds.**  For every successful analysis the consensus score is a number from 0 to 1; it is
0 exactly when the energy-flux detector finds no onset in the audio left after preprocessing, and otherwise 1.  A
score of 0 together with an enabled consensus does not mean that no onset was used, but without consensus it does:
then the analysis has no beats. -/
theorem C103_score_partial (L : Lib) (c : Config) (s : List F32) (sr : ℕ) (r : Result) (h : analyze L c s sr = .ok r) :
    0 ≤ r.onsetConsensus ∧ r.onsetConsensus ≤ 1 ∧
    (∃ y x energy, normalized L c s sr = .ok y ∧ trimmed L c y sr = .ok x ∧
      Onset.energyFluxOnsets L.M x c.frame c.hop (-20) = .ok energy ∧
      (r.onsetConsensus = 0 ↔ energy = []) ∧ (r.onsetConsensus = 1 ↔ energy ≠ [])) ∧
    (c.enableOnsetConsensus = false → r.onsetConsensus = 0 → r.grid.beats = []) ∧
    "energy_flux".toList ∈ r.methodsUsed := by
  obtain ⟨-, -, y, x, hy, hx, -, -, hr⟩ := analyze_inv h
  obtain ⟨energy, spec, ons, leg, t, g, k, h1, h2, h3, h4, h5, h6, h7, rfl⟩ := analyzeTrimmed_inv hr
  have hv : ∀ b g' k', (report L x.length sr energy t b g' k').onsetConsensus = if energy = [] then 0 else 1 :=
    fun _ _ _ => rfl
  refine ⟨?_, ?_, ⟨y, x, energy, hy, hx, h1, ?_, ?_⟩, ?_, ?_⟩
  · rw [hv]; split_ifs <;> decide +kernel
  · rw [hv]; split_ifs <;> decide +kernel
  · rw [hv]
    split_ifs with he
    · exact ⟨fun _ => he, fun _ => rfl⟩
    · exact ⟨fun h => absurd h (by decide +kernel), fun h => absurd h he⟩
  · rw [hv]
    split_ifs with he
    · exact ⟨fun h => absurd h (by decide +kernel), fun h => absurd he h⟩
    · exact ⟨fun _ => he, fun _ => rfl⟩
  · intro hc h0
    rw [hv] at h0
    have he : energy = [] := by
      by_contra he
      rw [if_neg he] at h0
      exact absurd h0 (by decide +kernel)
    subst he
    unfold Analyze.onsets at h3
    rw [hc] at h3
    simp only [Bool.false_and, Bool.false_eq_true, if_false] at h3
    cases h3
    unfold Analyze.beats at h6
    rw [if_neg (fun h => absurd h.2 (by decide))] at h6
    cases h6
    rfl
  · exact List.mem_cons_self ..

/-- **C103 is violated, for every input**: neither the score nor the list of methods depends on whether the detectors
vote, with which weights and tolerance, or which of them run.  The list never names the spectral-flux, HFC and HPSS
detectors, the tempogram or the legacy estimator, whichever of them produced the result. -/
theorem C103_violated_independent (L : Lib) (c : Config) (on hpss : Bool) (pct : F32) (margin tol : ℕ) (w : ℕ → F32)
    (s : List F32) (sr : ℕ) (r r' : Result) (h : analyze L c s sr = .ok r)
    (h' : analyze L (otherVote c on hpss pct margin tol w) s sr = .ok r') :
    r'.onsetConsensus = r.onsetConsensus ∧ r'.methodsUsed = r.methodsUsed ∧
    "spectral_flux".toList ∉ r.methodsUsed ∧ "hfc".toList ∉ r.methodsUsed ∧ "hpss".toList ∉ r.methodsUsed ∧
    "tempogram".toList ∉ r.methodsUsed ∧ "legacy".toList ∉ r.methodsUsed := by
  obtain ⟨-, -, y, x, hy, hx, -, -, hr⟩ := analyze_inv h
  obtain ⟨-, -, y', x', hy', hx', -, -, hr'⟩ := analyze_inv h'
  have ey : y' = y := Except.ok.inj (hy'.symm.trans hy)
  subst ey
  have ex : x' = x := Except.ok.inj (hx'.symm.trans hx)
  subst ex
  obtain ⟨energy, spec, ons, leg, t, g, k, h1, -, -, -, -, -, -, rfl⟩ := analyzeTrimmed_inv hr
  obtain ⟨energy', spec', ons', leg', t', g', k', h1', -, -, -, -, -, -, rfl⟩ := analyzeTrimmed_inv hr'
  have ee : energy' = energy := Except.ok.inj (h1'.symm.trans h1)
  subst ee
  have hm : (report L x'.length sr energy' t (Pipeline.selectBpm c.forceLegacy c.enableFusion t.est leg) g k).methodsUsed =
    ["energy_flux".toList, "chroma_extraction".toList, "key_detection".toList] := rfl
  rw [hm]
  exact ⟨rfl, rfl, by decide, by decide, by decide, by decide, by decide⟩

/-- **C103 is violated**: the score is 1 (full consensus) although the voting is on and neither of the two other
detectors finds a single onset. -/
theorem C103_violated : ∃ (L : Lib) (c : Config) (s : List F32) (sr : ℕ) (r : Result),
    c.enableOnsetConsensus = true ∧ analyze L c s sr = .ok r ∧ r.onsetConsensus = 1 ∧
    ∃ spec, Chroma.computeStft L.M L.sfft s c.frame c.hop = .ok spec ∧ spec ≠ [] ∧
      Onset.spectralFluxOnsets spec c.onsetPercentile = .ok [] ∧ Onset.hfcOnsets spec sr c.onsetPercentile = .ok [] := by
  have run : (match analyze quietLib { pulseConfig with enableOnsetConsensus := true } pulses 16 with
    | .ok r => decide (r.onsetConsensus = 1) | _ => false) = true := by decide +kernel
  have spe : (match Chroma.computeStft quietLib.M quietLib.sfft pulses 4 2 with
    | .ok spec => decide (spec ≠ []) &&
        (match Onset.spectralFluxOnsets spec pulseConfig.onsetPercentile with | .ok l => decide (l = []) | _ => false) &&
        (match Onset.hfcOnsets spec 16 pulseConfig.onsetPercentile with | .ok l => decide (l = []) | _ => false)
    | _ => false) = true := by decide +kernel
  rcases e : analyze quietLib { pulseConfig with enableOnsetConsensus := true } pulses 16 with err | r
  · rw [e] at run; simp at run
  rw [e] at run
  rcases e2 : Chroma.computeStft quietLib.M quietLib.sfft pulses 4 2 with err | spec
  · rw [e2] at spe; simp at spe
  rw [e2] at spe
  dsimp only at spe
  rcases e3 : Onset.spectralFluxOnsets spec pulseConfig.onsetPercentile with err | l
  · rw [e3] at spe; simp at spe
  rcases e4 : Onset.hfcOnsets spec 16 pulseConfig.onsetPercentile with err | l'
  · rw [e4] at spe; simp at spe
  rw [e3, e4] at spe
  simp only [Bool.and_eq_true, decide_eq_true_eq] at spe run
  exact ⟨quietLib, { pulseConfig with enableOnsetConsensus := true }, pulses, 16, r, rfl, e, run, spec, e2, spe.1.1,
    by rw [← spe.1.2]; exact e3, by rw [← spe.2]; exact e4⟩

/-- audio on which the score is 1, with the voting off -/
example : ∃ r, analyze quietLib pulseConfig (List.replicate 16 0 ++ pulses) 16 = .ok r ∧ r.grid.beats ≠ [] ∧
    r.onsetConsensus = 1 := by
  have run := pulse_run
  rcases e : analyze quietLib pulseConfig (List.replicate 16 0 ++ pulses) 16 with err | r
  · rw [e] at run; simp at run
  rw [e] at run
  have hb := of_decide_eq_true run
  obtain ⟨-, -, ⟨y, x, en, -, -, -, h0, h1⟩, h2, -⟩ := C103_score_partial _ _ _ _ _ e
  exact ⟨r, rfl, hb, h1.2 (fun he => hb (h2 rfl (h0.2 he)))⟩

end Verif.Props
