/-
C36 (time-signature detection) and C57 (regular beats do not keep the 4/4 default: refuted).
-/
import Mathlib.Tactic.IntervalCases
import Verif.Lemmas.Beat

namespace Verif.Props
open Verif Verif.Beat F32

/-- Positive gaps between neighbouring beats. -/
def gaps (beats : List F32) : List F32 := (List.zipWith (fun a b => b - a) beats beats.tail).filter (fun d => decide (0 < d))

/-- How well the gap sequence repeats after `lag` beats: the average similarity of gaps `lag` apart (70 %) and the
overall regularity (30 %), cut at 1; zero when there is no such pair. -/
def patternScore (iv : List F32) (lag : ℕ) : F32 :=
  let m := F32.sum iv / F32.ofNat iv.length
  let sims := List.zipWith (fun a b => 1 / (1 + (a - b).abs / m)) iv (iv.drop lag)
  if sims = [] then 0
  else
    let var := F32.sum (iv.map (fun x => (x - m) * (x - m))) / F32.ofNat iv.length
    let cv : F32 := if 1e-10 < m then F32.sqrt var / m else 1
    F32.min (F32.sum sims / F32.ofNat sims.length * 0.7 + 1 / (1 + cv) * 0.3) 1

theorem posIntervals_eq : ∀ beats : List F32, posIntervals beats = gaps beats
  | [] => rfl
  | [_] => rfl
  | a :: b :: l => by
    have ih := posIntervals_eq (b :: l)
    unfold gaps at ih ⊢
    simp only [List.tail_cons] at ih ⊢
    rw [posIntervals, List.zipWith_cons_cons, List.filter_cons, ih]
    by_cases h : 0 < b - a <;> simp [h]

theorem sims_eq (f : F32 → F32 → F32) (iv : List F32) (lag : ℕ) :
    (List.range (iv.length - lag)).map (fun i => f (iv.getD i 0) (iv.getD (i + lag) 0)) =
      List.zipWith f iv (iv.drop lag) := by
  apply List.ext_getElem
  · simp
  · intro i h1 h2
    simp only [List.length_map, List.length_range] at h1
    have h3 : i < iv.length := by omega
    have h4 : i + lag < iv.length := by omega
    have e3 : iv.getD i 0 = iv[i] := by simp [h3]
    have e4 : iv.getD (i + lag) 0 = iv[lag + i] := by simp [Nat.add_comm lag, h4]
    simp only [List.getElem_map, List.getElem_range, e3, e4, List.getElem_zipWith, List.getElem_drop]

theorem scoreSig_eq (iv : List F32) (lag : ℕ) : scoreSig iv lag (mean iv) = patternScore iv lag := by
  unfold scoreSig patternScore
  dsimp only
  change _ = if List.zipWith (fun a b => 1 / (1 + (a - b).abs / mean iv)) iv (iv.drop lag) = [] then 0 else _
  rw [sims_eq (fun a b => 1 / (1 + (a - b).abs / mean iv))]
  by_cases hl : iv.length < lag
  · rw [if_pos hl, if_pos]
    rw [List.drop_eq_nil_of_le (by omega)]; simp
  · rw [if_neg hl]
    by_cases hs : List.zipWith (fun a b => 1 / (1 + (a - b).abs / mean iv)) iv (iv.drop lag) = []
    · rw [if_pos (by rw [hs]; rfl), if_pos hs]
    · rw [if_neg (by rw [List.length_eq_zero_iff]; exact hs), if_neg hs]
      rfl

theorem patternScore_ne_nan (iv : List F32) (lag : ℕ) : patternScore iv lag ≠ nan := by
  unfold patternScore
  dsimp only
  by_cases hs : List.zipWith (fun a b => 1 / (1 + (a - b).abs / (F32.sum iv / F32.ofNat iv.length))) iv (iv.drop lag) = []
  · rw [if_pos hs]; exact zero_ne_nan
  · rw [if_neg hs]; exact min_ne_nan_right one_ne_nan

/-- **C36**: never a panic; 4/4 with 0.5 below eight beats; an error exactly when there are eight beats or more and
the BPM is not above 1e-10; otherwise a confidence in [0,1]. -/
theorem C36_total (beats : List F32) (bpm : F32) :
    (beats.length < 8 → timeSignature beats bpm = .ok (.fourFour, 0.5)) ∧
    (8 ≤ beats.length → bpm ≤ 1e-10 → timeSignature beats bpm = R.err .invalidInput) ∧
    (8 ≤ beats.length → ¬ bpm ≤ 1e-10 → ∃ sig c, timeSignature beats bpm = .ok (sig, c) ∧ 0 ≤ c ∧ c ≤ 1) := by
  refine ⟨fun h => ?_, fun h hb => ?_, fun h hb => ?_⟩
  · unfold timeSignature EPS; rw [if_pos h]
  · unfold timeSignature EPS; rw [if_neg (by omega), if_pos hb]
  · unfold timeSignature EPS
    rw [if_neg (by omega), if_neg hb]
    dsimp only
    by_cases hiv : posIntervals beats = []
    · rw [if_pos hiv]; exact ⟨_, _, rfl, by decide +kernel, by decide +kernel⟩
    · rw [if_neg hiv]
      simp only [scoreSig_eq, lastMax, isNaN_false_iff.2 (patternScore_ne_nan _ _), Bool.or_self, Bool.false_eq_true,
        if_false]
      split_ifs <;> exact ⟨_, _, rfl, clamp01 (patternScore_ne_nan _ _)⟩

/-- **C36**, the decision: with at least one positive gap the signature whose repeat length scores best is chosen
(the later one among equals, in the order 4/4, 3/4, 6/8) and its score is the confidence. -/
theorem C36_choice (beats : List F32) (bpm : F32) (h : 8 ≤ beats.length) (hb : ¬ bpm ≤ 1e-10) (hg : gaps beats ≠ []) :
    timeSignature beats bpm = .ok (
      let s4 := patternScore (gaps beats) 4
      let s3 := patternScore (gaps beats) 3
      let s6 := patternScore (gaps beats) 6
      if s4 ≤ s6 ∧ s3 ≤ s6 then (.sixEight, F32.clamp s6 0 1)
      else if s4 ≤ s3 then (.threeFour, F32.clamp s3 0 1) else (.fourFour, F32.clamp s4 0 1)) := by
  have n := patternScore_ne_nan (gaps beats)
  unfold timeSignature EPS
  rw [if_neg (by omega), if_neg hb, posIntervals_eq]
  dsimp only
  rw [if_neg hg]
  simp only [scoreSig_eq, lastMax, isNaN_false_iff.2 (n _), Bool.or_self, Bool.false_eq_true, if_false]
  have n4 := n 4
  have n3 := n 3
  have n6 := n 6
  revert n4 n3 n6
  generalize patternScore (gaps beats) 4 = s4
  generalize patternScore (gaps beats) 3 = s3
  generalize patternScore (gaps beats) 6 = s6
  intro n4 n3 n6
  by_cases h34 : s3 < s4
  · have h43 : ¬ s4 ≤ s3 := not_le_of_lt h34
    rw [if_pos h34]
    by_cases h64 : s6 < s4
    · rw [if_pos h64, if_neg (fun hh => not_le_of_lt h64 hh.1), if_neg h43]; rfl
    · have h46 := le_of_not_lt n4 n6 h64
      rw [if_neg h64, if_pos ⟨h46, F32.le_of_lt (lt_of_lt_of_le h34 h46)⟩]; rfl
  · have h43 := le_of_not_lt n4 n3 h34
    rw [if_neg h34]
    by_cases h63 : s6 < s3
    · rw [if_pos h63, if_neg (fun hh => not_le_of_lt h63 hh.2), if_pos h43]; rfl
    · have h36 := le_of_not_lt n3 n6 h63
      rw [if_neg h63, if_pos ⟨F32.le_trans h43 h36, h36⟩]; rfl

/-- **C57 violated**, universally: whenever all gaps between neighbouring beats are equal -- no evidence for any metre
-- the three hypotheses tie and 6/8 is reported, never the default 4/4. -/
theorem C57_violated (beats : List F32) (bpm d : F32) (hb : ¬ bpm ≤ 1e-10) (h8 : 8 ≤ beats.length)
    (h24 : beats.length ≤ 2 ^ 24) (hd : 0 < d)
    (heq : ∀ i, (h : i + 1 < beats.length) → beats[i + 1] - beats[i] = d) :
    ∃ c, timeSignature beats bpm = .ok (.sixEight, c) ∧ 0 ≤ c ∧ c ≤ 1 := by
  have hgap : gaps beats = List.replicate (beats.length - 1) d := by
    unfold gaps
    have hz : List.zipWith (fun a b => b - a) beats beats.tail = List.replicate (beats.length - 1) d := by
      apply List.ext_getElem
      · simp
      · intro i h1 h2
        simp only [List.length_replicate] at h2
        simpa using heq i (by omega)
    rw [hz]; simp [hd]
  have hsc : ∀ i j, i ≤ 6 → j ≤ 6 → patternScore (gaps beats) i = patternScore (gaps beats) j := by
    suffices hs : ∀ i ≤ 6, F32.sum (List.replicate (beats.length - 1 - i) (1 / (1 + (d - d).abs /
        (F32.sum (gaps beats) / F32.ofNat (gaps beats).length)))) / F32.ofNat (beats.length - 1 - i) =
        1 / (1 + (d - d).abs / (F32.sum (gaps beats) / F32.ofNat (gaps beats).length)) by
      have hz : ∀ i ≤ 6, List.zipWith (fun a b => 1 / (1 + (a - b).abs /
          (F32.sum (gaps beats) / F32.ofNat (gaps beats).length))) (gaps beats) ((gaps beats).drop i) =
          List.replicate (beats.length - 1 - i) (1 / (1 + (d - d).abs /
          (F32.sum (gaps beats) / F32.ofNat (gaps beats).length))) := by
        intro i hi
        apply List.ext_getElem
        · simp [hgap]
        · intro k h1 h2
          simp [hgap]
      have hp : ∀ i ≤ 6, patternScore (gaps beats) i = F32.min (
          1 / (1 + (d - d).abs / (F32.sum (gaps beats) / F32.ofNat (gaps beats).length)) * 0.7 +
          1 / (1 + (if 1e-10 < F32.sum (gaps beats) / F32.ofNat (gaps beats).length then
            F32.sqrt (F32.sum ((gaps beats).map (fun x => (x - F32.sum (gaps beats) / F32.ofNat (gaps beats).length) *
              (x - F32.sum (gaps beats) / F32.ofNat (gaps beats).length))) / F32.ofNat (gaps beats).length) /
              (F32.sum (gaps beats) / F32.ofNat (gaps beats).length) else 1)) * 0.3) 1 := by
        intro i hi
        unfold patternScore
        dsimp only
        rw [hz i hi, if_neg (by simp; omega), List.length_replicate, hs i hi]
      intro i j hi hj
      rw [hp i hi, hp j hj]
    intro i hi
    generalize F32.sum (gaps beats) / F32.ofNat (gaps beats).length = m
    have hk1 : 0 < beats.length - 1 - i := by omega
    have hk2 : beats.length - 1 - i ≤ 2 ^ 24 := by omega
    generalize beats.length - 1 - i = k at hk1 hk2
    have hnan : (d - d).abs = nan → (1 / (1 + (d - d).abs / m) : F32) = nan := by
      intro h; rw [h]; simp
    have hv : (1 / (1 + (d - d).abs / m) : F32) = 1 ∨ (1 / (1 + (d - d).abs / m) : F32) = nan := by
      rcases d with _ | s | ⟨v, hv⟩
      · right; exact hnan rfl
      · right; exact hnan (by cases s <;> rfl)
      · have h0 : (fin v hv - fin v hv).abs = (0 : F32) := by
          rw [sub_fin, sub_self, rnd_zero]; decide +kernel
        rw [h0]
        rcases m with _ | s | ⟨w, hw⟩
        · right; simp
        · left; rw [zero_def, fin_div_inf]; decide +kernel
        · by_cases hw0 : w = 0
          · subst hw0; right; rw [zero_def, div_fin_zero]; simp
          · left; rw [zero_def, div_fin hw0, zero_div, rnd_zero]; decide +kernel
    rcases hv with h | h
    · rw [h]
      have hsum : ∀ k ≤ 2 ^ 24, F32.sum (List.replicate k 1) = F32.ofNat k := by
        intro k hk
        induction k with
        | zero => rw [ofNat_zero]; rfl
        | succ n ih =>
          rw [List.replicate_succ']
          unfold F32.sum at ih ⊢
          rw [List.foldl_append, ih (by omega)]
          simp only [List.foldl_cons, List.foldl_nil]
          rw [ofNat_exact (by omega), ofNat_exact hk, one_def, add_fin, ← rnd_val (grid_nat hk)]
          push_cast; rfl
      rw [hsum k hk2, ofNat_exact hk2, div_fin (by exact_mod_cast hk1.ne'), div_self (by exact_mod_cast hk1.ne'), rnd_one]
    · rw [h]
      rw [sum_nan (by simp; omega)]; rfl
  have h1 : timeSignature beats bpm = .ok (.sixEight, F32.clamp (patternScore (gaps beats) 6) 0 1) := by
    rw [C36_choice beats bpm h8 hb (by rw [hgap]; simp; omega)]
    dsimp only
    rw [hsc 4 6 (by omega) (by omega), hsc 3 6 (by omega) (by omega),
      if_pos ⟨F32.le_refl (patternScore_ne_nan _ _), F32.le_refl (patternScore_ne_nan _ _)⟩]
  exact ⟨_, h1, clamp01 (patternScore_ne_nan _ _)⟩

/-- non-vacuity: the documentation example (eight beats at 120 BPM); it is reported as 6/8 with confidence 1 -/
example : ∀ i, (h : i + 1 < ([0, 0.5, 1, 1.5, 2, 2.5, 3, 3.5] : List F32).length) →
    ([0, 0.5, 1, 1.5, 2, 2.5, 3, 3.5] : List F32)[i + 1] - ([0, 0.5, 1, 1.5, 2, 2.5, 3, 3.5] : List F32)[i] = 0.5 := by
  intro i h
  have h7 : i < 7 := Nat.lt_of_succ_lt_succ h
  interval_cases i <;> decide +kernel +revert
example : timeSignature [0, 0.5, 1, 1.5, 2, 2.5, 3, 3.5] 120 = .ok (.sixEight, 1) := by decide +kernel
/-- non-vacuity of the decision theorem: a rhythm that repeats after four beats is reported as 4/4 -/
example : gaps [0, 1, 1.5, 2, 2.5, 3.5, 4, 4.5, 5] ≠ [] ∧ (match timeSignature [0, 1, 1.5, 2, 2.5, 3.5, 4, 4.5, 5] 80 with
    | .ok (sig, c) => some (sig, c.val) | .error _ => none) = some (.fourFour, 7741131 / 8388608) := by decide +kernel

end Verif.Props
