/-
Property theorems C149: equal frame weights (src/features/key/detector.rs).
-/
import Verif.Props.KeyVariants

namespace Verif.Props
open Verif Verif.Keys Verif.KeyDet F32

/-- Specification: weight one for every frame -/
def ones (chroma : List (List F32)) : Option (List F32) := some (chroma.map (fun _ => 1))

theorem one_times (x : F32) : 1 * x = x := by
  rw [one_def]
  rcases x with _ | s | ⟨q, hq⟩
  · rfl
  · rw [fin_mul_inf, if_neg one_ne_zero, decide_eq_false (by norm_num)]; simp
  · rw [mul_fin, one_mul]; exact rnd_val hq

theorem dot_ones (chroma : List (List F32)) (t : List F32) : weightedSumDot chroma (ones chroma) t = weightedSumDot chroma none t := by
  have key : ∀ (l : List (List F32)) (a : F32), (l.zip (l.map (fun _ => (1 : F32)))).foldl
      (fun acc p => if 0 < p.2 then acc + p.2 * dot p.1 t else acc) a = l.foldl (fun acc c => acc + dot c t) a := by
    intro l
    induction l with
    | nil => intro a; rfl
    | cons c l ih =>
      intro a
      rw [List.map_cons, List.zip_cons_cons, List.foldl_cons, List.foldl_cons, if_pos (show (0 : F32) < 1 by decide +kernel), one_times, ih]
  exact key chroma 0

/-- **C149 (plain, partial)**: `detect_key_weighted` with weight one for every frame returns what `detect_key` returns, for every chroma,
template set and hash order.  Missing, here and below: other equal weights (`C149_violated`). -/
theorem C149_plain_partial (ord : List (Key × F32) → List (Key × F32)) (chroma : List (List F32)) (T : Templates) :
    detectKey ord chroma T (ones chroma) = detectKey ord chroma T none := by
  have e : rawScores chroma T (ones chroma) = rawScores chroma T none := by
    unfold rawScores; simp only [dot_ones]
  unfold detectKey
  rw [e]
  simp [ones]

theorem sum_ones (chroma : List (List F32)) (hl : chroma.length ≤ 2 ^ 24) : chromaSum chroma (ones chroma) = chromaSum chroma none := by
  have key : ∀ (l : List (List F32)) (a : List F32) (n : ℕ), n + l.length ≤ 2 ^ 24 →
      (l.zip (l.map (fun _ => (1 : F32)))).foldl (fun (acc : List F32 × F32) p =>
        if p.2 ≤ 0 then acc else (addRow acc.1 (p.1.map (fun x => p.2 * x)), acc.2 + p.2)) (a, F32.ofNat n) =
      (l.foldl addRow a, F32.ofNat (n + l.length)) := by
    intro l
    induction l with
    | nil => intro a n _; rfl
    | cons c l ih =>
      intro a n hn
      rw [List.length_cons] at hn
      rw [List.map_cons, List.zip_cons_cons, List.foldl_cons, List.foldl_cons, if_neg (show ¬ (1 : F32) ≤ 0 by decide +kernel)]
      have e1 : c.map (fun x => 1 * x) = c := by
        conv_rhs => rw [← List.map_id c]
        exact List.map_congr_left (fun x _ => one_times x)
      have e2 : F32.ofNat n + 1 = F32.ofNat (n + 1) := by
        rw [ofNat_exact (by omega), ofNat_exact (by omega), one_def, add_fin]
        have h : OnGrid ((n : ℚ) + 1) ∧ |(n : ℚ) + 1| < pow2 128 := by
          have := grid_nat (n := n + 1) (by omega); push_cast at this; exact this
        rw [rnd_val h]
        congr 1; push_cast; rfl
      dsimp only
      rw [e1, e2, ih _ _ (by omega), List.length_cons, show n + 1 + l.length = n + (l.length + 1) by omega]
  have := key chroma (List.replicate 12 0) 0 (by omega)
  rw [show F32.ofNat 0 = 0 by decide +kernel, Nat.zero_add] at this
  exact this

/-- **C149 (mode heuristic)**: the same for the detector with the mode heuristic, for up to `2^24` frames. -/
theorem C149_mode_partial (ord : List (Key × F32) → List (Key × F32)) (chroma : List (List F32)) (T : Templates) (hl : chroma.length ≤ 2 ^ 24)
    (thirdMargin flipMin : F32) (bonus : Bool) (bonusWeight : F32) :
    detectKeyMode ord chroma T (ones chroma) thirdMargin flipMin bonus bonusWeight =
      detectKeyMode ord chroma T none thirdMargin flipMin bonus bonusWeight := by
  unfold detectKeyMode
  rw [C149_plain_partial, sum_ones chroma hl]

/-- **C149 (ensemble)**: the same for the ensemble of both template sets. -/
theorem C149_ensemble_partial (ord1 ord2 : List (Key × F32) → List (Key × F32)) (chroma : List (List F32)) (wKK wTemp : F32) :
    detectEnsemble ord1 ord2 chroma (ones chroma) wKK wTemp = detectEnsemble ord1 ord2 chroma none wKK wTemp := by
  unfold detectEnsemble
  rw [C149_plain_partial, C149_plain_partial]

theorem seg_ones (chroma : List (List F32)) (s len : ℕ) :
    segWeights (ones chroma) s len = ones ((chroma.drop s).take len) ∨ segWeights (ones chroma) s len = none := by
  unfold segWeights ones
  rw [Option.bind_some]
  split_ifs
  · left; rw [List.map_take, List.map_drop]
  · right; rfl

/-- a detector that treats equal weights like none, on windows of the chroma, collects the same segments -/
theorem accSegments_ones (det : List (List F32) → Option (List F32) → R Res) (chroma : List (List F32))
    (h : ∀ s len, det ((chroma.drop s).take len) (ones ((chroma.drop s).take len)) = det ((chroma.drop s).take len) none)
    (mc sw : F32) (len : ℕ) : ∀ (ss : List ℕ) (acc : Acc), accSegments det chroma (ones chroma) mc sw len ss acc =
      accSegments det chroma none mc sw len ss acc := by
  intro ss
  induction ss with
  | nil => intro acc; rfl
  | cons s ss ih =>
    intro acc
    have e : det ((chroma.drop s).take len) (segWeights (ones chroma) s len) =
        det ((chroma.drop s).take len) (segWeights none s len) := by
      rcases seg_ones chroma s len with e | e
      · rw [e, h]; rfl
      · rw [e]; rfl
    unfold accSegments
    rw [e]
    simp only [ih]

theorem accScales_ones (det : List (List F32) → Option (List F32) → R Res) (chroma : List (List F32))
    (h : ∀ s len, det ((chroma.drop s).take len) (ones ((chroma.drop s).take len)) = det ((chroma.drop s).take len) none)
    (mc : F32) (hop : ℕ) (sw : Option (List F32)) : ∀ (lens : List ℕ) (i : ℕ) (acc : Acc),
      accScales det chroma (ones chroma) mc hop sw i lens acc = accScales det chroma none mc hop sw i lens acc := by
  intro lens
  induction lens with
  | nil => intro i acc; rfl
  | cons len lens ih =>
    intro i acc
    unfold accScales
    simp only [accSegments_ones det chroma h, ih]

/-- **C149 (multi-scale)**: the same for the multi-scale detector, for all segment lengths, hops and settings. -/
theorem C149_multi_partial (ord : List (Key × F32) → List (Key × F32)) (chroma : List (List F32)) (T : Templates) (hl : chroma.length ≤ 2 ^ 24)
    (lens : List ℕ) (hop : ℕ) (minClarity : F32) (sw : Option (List F32)) (modeOn : Bool) (thirdMargin flipMin : F32) (bonus : Bool)
    (bonusWeight : F32) :
    detectMultiScale ord chroma T (ones chroma) lens hop minClarity sw modeOn thirdMargin flipMin bonus bonusWeight =
      detectMultiScale ord chroma T none lens hop minClarity sw modeOn thirdMargin flipMin bonus bonusWeight := by
  have hd : ∀ c : List (List F32), c.length ≤ 2 ^ 24 → detectWith ord c T (ones c) modeOn thirdMargin flipMin bonus bonusWeight =
      detectWith ord c T none modeOn thirdMargin flipMin bonus bonusWeight := by
    intro c hc
    unfold detectWith
    rw [C149_plain_partial, C149_mode_partial _ _ _ hc]
  unfold detectMultiScale
  dsimp only
  rw [accScales_ones _ _ (fun s len => hd _ (by rw [List.length_take, List.length_drop]; omega)), hd chroma hl]

/-- **C149 (median)**: the same for the median detector. -/
theorem C149_median_partial (ord : List (Key × F32) → List (Key × F32)) (ordC : List (Key × ℕ × F32) → List (Key × ℕ × F32))
    (chroma : List (List F32)) (T : Templates) (segLen hop minSeg : ℕ) :
    detectMedian ord ordC chroma T (ones chroma) segLen hop minSeg = detectMedian ord ordC chroma T none segLen hop minSeg := by
  have hm : ∀ (len : ℕ) (ss : List ℕ), medianSegments ord chroma T (ones chroma) len ss = medianSegments ord chroma T none len ss := by
    intro len ss
    induction ss with
    | nil => rfl
    | cons s ss ih =>
      have e : detectKey ord ((chroma.drop s).take len) T (segWeights (ones chroma) s len) =
          detectKey ord ((chroma.drop s).take len) T (segWeights none s len) := by
        rcases seg_ones chroma s len with e | e
        · rw [e, C149_plain_partial]; rfl
        · rw [e]; rfl
      unfold medianSegments
      rw [e, ih]
  unfold detectMedian
  simp only [hm, C149_plain_partial]

/-- non-vacuity: two frames, both ways of asking -/
example : (match detectKey id [[1, 0, 0, 0, 1, 0, 0, 1, 0, 0, 0, 0], [1, 0, 0, 0, 0, 1, 0, 0, 0, 1, 0, 0]] krumhanslKessler (some [1, 1]) with
      | .ok a => decide (a.key = .major 0) || decide (a.key = .major 5) | _ => false) = true := by decide +kernel

/-- **C149 violated**: equal weights other than one can change the key: the profile of C major, unweighted and with weight `1e-11`. -/
theorem C149_violated :
    (match detectKey id [krumhanslKessler.getMajor 0] krumhanslKessler none,
        detectKey id [krumhanslKessler.getMajor 0] krumhanslKessler (some [1e-11]) with
      | .ok a, .ok b => decide (a.key = .minor 9) && decide (b.key = .major 0) | _, _ => false) = true := by decide +kernel

end Verif.Props
