/-
Property theorems C127: pauses have no say in the key (src/features/key/detector.rs, src/lib.rs lines 1290-1456).
-/
import Verif.Props.FrameWeights
import Verif.Props.KeyVariants

namespace Verif.Props
open Verif Verif.Keys Verif.KeyDet Verif.Analyze F32

/-! ### Specification -/

/-- the chroma vector of silence -/
def silentFrame : List F32 := List.replicate 12 0

/-- the second track is the first with pauses anywhere -/
inductive WithRests : List (List F32) → List (List F32) → Prop
  | nil : WithRests [] []
  | same {a b} (x : List F32) (h : WithRests a b) : WithRests (x :: a) (x :: b)
  | rest {a b} (h : WithRests a b) : WithRests a (silentFrame :: b)

/-- templates made of 12 numbers -/
def Plain (T : Templates) : Prop := ∀ i, (∀ v ∈ T.getMajor i, v.isFinite = true) ∧ ∀ v ∈ T.getMinor i, v.isFinite = true

/-! ### Lemmas -/

theorem zero_mul_fin {v : F32} (h : v.isFinite = true) : (0 : F32) * v = 0 := by
  obtain ⟨q, hq, rfl⟩ := isFinite_iff.1 h
  rw [zero_def, mul_fin, zero_mul, rnd_zero_eq]

theorem dot_silent {n : ℕ} {t : List F32} (h : ∀ v ∈ t, v.isFinite = true) : dot (List.replicate n 0) t = 0 := by
  unfold dot F32.sum
  induction t generalizing n with
  | nil => simp
  | cons v t ih =>
    cases n with
    | zero => rfl
    | succ n =>
      rw [List.replicate_succ, List.zipWith_cons_cons, List.foldl_cons, zero_mul_fin (h v List.mem_cons_self),
        show (0 : F32) + 0 = 0 by decide +kernel]
      exact ih (fun w hw => h w (List.mem_cons_of_mem _ hw))

theorem WithRests.dots {a b} (h : WithRests a b) {t : List F32} (ht : ∀ v ∈ t, v.isFinite = true) :
    weightedSumDot a none t = weightedSumDot b none t := by
  unfold weightedSumDot
  suffices key : ∀ acc : F32, a.foldl (fun acc c => acc + dot c t) acc = b.foldl (fun acc c => acc + dot c t) acc from key 0
  induction h with
  | nil => intro acc; rfl
  | same x _ ih => intro acc; exact ih _
  | rest _ ih =>
    intro acc
    rw [List.foldl_cons, silentFrame, dot_silent ht, add_zero']
    exact ih _

theorem WithRests.empty {a b} (h : WithRests a b) (ha : a ≠ []) : b ≠ [] := by
  cases h with
  | nil => exact ha
  | same x _ => simp
  | rest _ => simp

theorem WithRests.rows {a b} (h : WithRests a b) : a.any (fun c => c.length != 12) = b.any (fun c => c.length != 12) := by
  induction h with
  | nil => rfl
  | same x _ ih => rw [List.any_cons, List.any_cons, ih]
  | rest _ ih => rw [List.any_cons, ← ih]; simp [silentFrame]

theorem WithRests.sums {a b} (h : WithRests a b) (hr : a.any (fun c => c.length != 12) = false) :
    (chromaSum a none).1 = (chromaSum b none).1 := by
  unfold chromaSum
  suffices key : ∀ acc : List F32, acc.length = 12 → a.foldl addRow acc = b.foldl addRow acc from key _ (by simp)
  induction h with
  | nil => intro acc _; rfl
  | same x _ ih =>
    intro acc ha
    rw [List.any_cons, Bool.or_eq_false_iff] at hr
    refine ih hr.2 _ ?_
    unfold addRow
    rw [List.length_zipWith, ha]
    have := hr.1
    simp at this
    omega
  | rest _ ih =>
    intro acc ha
    rw [List.foldl_cons]
    have e : addRow acc silentFrame = acc := by
      unfold addRow silentFrame
      rw [← ha]
      clear ha ih hr
      induction acc with
      | nil => rfl
      | cons v acc ih => rw [List.length_cons, List.replicate_succ, List.zipWith_cons_cons, ih, add_zero']
    rw [e]
    exact ih hr acc ha

/-! ### Theorems -/

/-- **C127, detection.** Pauses anywhere in a track change neither the key nor its confidence nor the ranking. -/
theorem C127_detect (ord : List (Key × F32) → List (Key × F32)) (T : Templates) (hT : Plain T) (a b : List (List F32))
    (h : WithRests a b) (ha : a ≠ []) : detectKey ord a T none = detectKey ord b T none := by
  have hraw : rawScores a T none = rawScores b T none := by
    unfold rawScores
    congr 1
    · exact List.map_congr_left fun i _ => by rw [h.dots (hT i).1]
    · exact List.map_congr_left fun i _ => by rw [h.dots (hT i).2]
  unfold detectKey
  rw [if_neg ha, if_neg (h.empty ha), h.rows, hraw]
  rfl

theorem count_audible {n : ℕ} (h : 0 < n) : ¬ F32.ofNat n ≤ 1e-9 :=
  not_le_of_lt (F32.lt_of_lt_of_le (by decide +kernel) (ofNat_mono h : F32.ofNat 1 ≤ F32.ofNat n))

/-- **C127, mode heuristic (partial).** Full claim: the same for the mode heuristic with the harmonic-minor bonus.  The bonus
grows with the number of frames (`C127_violated`); here without it. -/
theorem C127_mode_partial (ord : List (Key × F32) → List (Key × F32)) (T : Templates) (hT : Plain T) (a b : List (List F32))
    (h : WithRests a b) (ha : a ≠ []) (tm fm bw : F32) :
    detectKeyMode ord a T none tm fm false bw = detectKeyMode ord b T none tm fm false bw := by
  unfold detectKeyMode
  rw [← C127_detect ord T hT a b h ha]
  cases hd : detectKey ord a T none with
  | error e => rfl
  | ok base =>
    have hr : a.any (fun c => c.length != 12) = false := by
      unfold detectKey at hd
      rw [if_neg ha] at hd
      by_contra hc
      rw [if_pos (by simpa using hc)] at hd
      cases hd
    rw [R.ok_bind, R.ok_bind]
    dsimp only
    by_cases hf : false = false ∧ ¬ 0 < F32.clamp fm 0 1
    · rw [if_pos hf, if_pos hf]
    rw [if_neg hf, if_neg hf]
    have e1 : (chromaSum a none).2 = F32.ofNat a.length := rfl
    have e2 : (chromaSum b none).2 = F32.ofNat b.length := rfl
    rw [e1, e2, if_neg (count_audible (List.length_pos_iff.2 ha)), if_neg (count_audible (List.length_pos_iff.2 (h.empty ha))), ← h.sums hr]
    rfl

theorem plain_of_unit {T : Templates} (h : UnitTemplates T) : Plain T := fun i =>
  ⟨fun v hv => isFinite_of_between (by decide +kernel) (by decide +kernel) (h.1 _ v hv).1 (h.1 _ v hv).2,
    fun v hv => isFinite_of_between (by decide +kernel) (by decide +kernel) (h.2 _ v hv).1 (h.2 _ v hv).2⟩

theorem kk_plain : Plain krumhanslKessler := plain_of_unit unitTemplates_builtin.1

theorem temperley_plain : Plain temperley := plain_of_unit unitTemplates_builtin.2

/-- **C127, whole key stage (partial).** In the whole key stage without frame weights: with the ensemble, or when neither the
multi-scale analysis nor the segment vote applies and there is no harmonic-minor bonus.  Missing: segments, which are cut by
counting frames. -/
theorem C127_stage_partial (L : Lib) (c : Config) (a b : List (List F32)) (h : WithRests a b) (ha : a ≠ [])
    (hc : c.enableEnsemble = true ∨ (multiScaleOn c a.length = false ∧ multiScaleOn c b.length = false ∧
      segOn c a.length = false ∧ segOn c b.length = false ∧ c.enableMinorBonus = false)) :
    keyCall L c a none = keyCall L c b none := by
  unfold keyCall
  by_cases he : c.enableEnsemble = true
  · rw [if_pos he, if_pos he]
    unfold detectEnsemble
    rw [C127_detect L.ord _ kk_plain a b h ha, C127_detect L.ord2 _ temperley_plain a b h ha]
  · obtain ⟨m1, m2, s1, s2, hb⟩ := hc.resolve_left he
    rw [if_neg he, if_neg he, m1, m2, s1, s2, if_neg Bool.false_ne_true, if_neg Bool.false_ne_true, if_neg Bool.false_ne_true,
      if_neg Bool.false_ne_true]
    have hT : Plain (templates c) := by
      unfold templates
      split <;> first | exact kk_plain | exact temperley_plain
    have : detect L c a none = detect L c b none := by
      unfold detect KeyDet.detectWith
      rw [hb]
      rw [C127_detect L.ord _ hT a b h ha, C127_mode_partial L.ord _ hT a b h ha]
    rw [this]

/-- C, E and G -/
def triad : List F32 := [1, 0, 0, 0, 1, 0, 0, 1, 0, 0, 0, 0]

example : WithRests [triad, triad] [silentFrame, triad, silentFrame, silentFrame, triad] :=
  .rest (.same _ (.rest (.rest (.same _ .nil))))

/-- the scores of the 24 keys for the C major chord -/
def triadScores : List (Key × F32) :=
  [(.major 0, rnd (10406691/8388608)), (.major 1, rnd (2526499/4194304)), (.major 2, rnd (12890701/16777216)), (.major 3, rnd (3356681/4194304)),
   (.major 4, rnd (7236311/8388608)), (.major 5, rnd (7550081/8388608)), (.major 6, rnd (2300977/4194304)), (.major 7, rnd (4608491/4194304)),
   (.major 8, rnd (1577019/2097152)), (.major 9, rnd (3206333/4194304)), (.major 10, rnd (6314613/8388608)), (.major 11, rnd (11387221/16777216)),
   (.minor 0, rnd (4263677/4194304)), (.minor 1, rnd (6912891/8388608)), (.minor 2, rnd (3238275/4194304)), (.minor 3, rnd (621007/1048576)),
   (.minor 4, rnd (2445069/2097152)), (.minor 5, rnd (3565531/4194304)), (.minor 6, rnd (10671659/16777216)), (.minor 7, rnd (3911487/4194304)),
   (.minor 8, rnd (6077609/8388608)), (.minor 9, rnd (8396451/8388608)), (.minor 10, rnd (5454265/8388608)), (.minor 11, rnd (6351881/8388608))]

/-- the same, normalised, refined and ranked -/
def triadRanking : List (Key × F32) :=
  [(.major 0, rnd (5033165/4194304)), (.minor 4, rnd (5033165/4194304)), (.major 7, rnd (16536941/16777216)), (.minor 9, rnd (8040553/8388608)),
   (.minor 0, rnd (14627937/16777216)), (.major 5, rnd (13849635/16777216)), (.minor 7, rnd (6709817/8388608)), (.minor 11, rnd (12573823/16777216)),
   (.minor 5, rnd (12232719/16777216)), (.minor 1, rnd (11858465/16777216)), (.major 4, rnd (11666067/16777216)), (.minor 2, rnd (1388745/2097152)),
   (.major 3, rnd (10822991/16777216)), (.minor 8, rnd (2606403/4194304)), (.major 2, rnd (10390915/16777216)), (.major 9, rnd (5169111/8388608)),
   (.major 10, rnd (10180145/16777216)), (.major 8, rnd (10169607/16777216)), (.minor 10, rnd (9356319/16777216)), (.major 11, rnd (573687/1048576)),
   (.minor 6, rnd (9153153/16777216)), (.minor 3, rnd (4261135/8388608)), (.major 1, rnd (16292449/33554432)), (.major 6, rnd (14838141/33554432))]

theorem triad_raw : rawScores [triad] krumhanslKessler none = triadScores := by decide +kernel

theorem triad_ranked : sortDescP Prod.snd (refineScores (normScores triadScores)) = .ok triadRanking := by decide +kernel

theorem triad_base : ∃ r, detectKey id [triad] krumhanslKessler none = .ok r ∧ r.all = triadRanking := by
  unfold detectKey
  rw [if_neg (by simp), if_neg (by decide), if_neg (by simp), triad_raw, triad_ranked]
  exact ⟨_, rfl, rfl⟩

def triadBonus1 : List (Key × F32) :=
  [(.major 0, rnd (5033165/4194304)), (.minor 4, rnd (5033165/4194304)), (.major 7, rnd (16536941/16777216)), (.minor 9, rnd (14962625/16777216)),
   (.minor 0, rnd (14627937/16777216)), (.major 5, rnd (13849635/16777216)), (.minor 7, rnd (6709817/8388608)), (.minor 11, rnd (12573823/16777216)),
   (.minor 5, rnd (417225/524288)), (.minor 1, rnd (6488473/8388608)), (.major 4, rnd (11666067/16777216)), (.minor 2, rnd (9991479/16777216)),
   (.major 3, rnd (10822991/16777216)), (.minor 8, rnd (11544093/16777216)), (.major 2, rnd (10390915/16777216)), (.major 9, rnd (5169111/8388608)),
   (.major 10, rnd (10180145/16777216)), (.major 8, rnd (10169607/16777216)), (.minor 10, rnd (9356319/16777216)), (.major 11, rnd (573687/1048576)),
   (.minor 6, rnd (502167/1048576)), (.minor 3, rnd (4261135/8388608)), (.major 1, rnd (16292449/33554432)), (.major 6, rnd (14838141/33554432))]

def triadBonus31 : List (Key × F32) :=
  [(.major 0, rnd (5033165/4194304)), (.minor 4, rnd (5033165/4194304)), (.major 7, rnd (16536941/16777216)), (.minor 9, rnd (-9295905/8388608)),
   (.minor 0, rnd (14627937/16777216)), (.major 5, rnd (13849635/16777216)), (.minor 7, rnd (6709817/8388608)), (.minor 11, rnd (12573823/16777216)),
   (.minor 5, rnd (11726409/4194304)), (.minor 1, rnd (11632845/4194304)), (.major 4, rnd (11666067/16777216)), (.minor 2, rnd (-5890739/4194304)),
   (.major 3, rnd (10822991/16777216)), (.minor 8, rnd (1409329/524288)), (.major 2, rnd (10390915/16777216)), (.major 9, rnd (5169111/8388608)),
   (.major 10, rnd (10180145/16777216)), (.major 8, rnd (10169607/16777216)), (.minor 10, rnd (9356319/16777216)), (.major 11, rnd (573687/1048576)),
   (.minor 6, rnd (-6379941/4194304)), (.minor 3, rnd (4261135/8388608)), (.major 1, rnd (16292449/33554432)), (.major 6, rnd (14838141/33554432))]

theorem triad_avg : chromaAvg (chromaSum [triad] none).1 = [rnd (11184811/33554432), 0, 0, 0, rnd (11184811/33554432), 0, 0, rnd (11184811/33554432), 0, 0, 0, 0] := by
  decide +kernel

theorem triad_bonus : minorBonus true 0.2 (F32.ofNat 1) [rnd (11184811/33554432), 0, 0, 0, rnd (11184811/33554432), 0, 0, rnd (11184811/33554432), 0, 0, 0, 0] triadRanking = triadBonus1 ∧
    minorBonus true 0.2 (F32.ofNat 31) [rnd (11184811/33554432), 0, 0, 0, rnd (11184811/33554432), 0, 0, rnd (11184811/33554432), 0, 0, 0, 0] triadRanking = triadBonus31 := by
  decide +kernel

/-- **C127 violated.** With the harmonic-minor bonus at its default weight a C major chord is in C major, and the same chord
followed by thirty silent frames is in F minor. -/
theorem C127_violated : WithRests [triad] (triad :: List.replicate 30 silentFrame) ∧
    (∃ r, detectKeyMode id [triad] krumhanslKessler none 0.02 0 true 0.2 = .ok r ∧ r.key = .major 0) ∧
    ∃ r, detectKeyMode id (triad :: List.replicate 30 silentFrame) krumhanslKessler none 0.02 0 true 0.2 = .ok r ∧
      r.key = .minor 5 := by
  have hw : WithRests [triad] (triad :: List.replicate 30 silentFrame) := by
    refine .same _ ?_
    have : ∀ n, WithRests [] (List.replicate n silentFrame) := by
      intro n
      induction n with
      | zero => exact .nil
      | succ n ih => exact .rest ih
    exact this 30
  obtain ⟨base, hb, hall⟩ := triad_base
  have hb' := hb
  rw [C127_detect id _ kk_plain _ _ hw (by simp)] at hb'
  refine ⟨hw, ?_, ?_⟩
  · unfold detectKeyMode
    rw [hb]
    simp only [R.ok_bind]
    rw [if_neg (by simp), if_neg (by decide +kernel), hall, triad_avg]
    refine ⟨_, rfl, ?_⟩
    rw [show (chromaSum [triad] none).2 = F32.ofNat 1 from rfl, triad_bonus.1]
    decide +kernel
  · unfold detectKeyMode
    rw [hb']
    simp only [R.ok_bind]
    rw [if_neg (by simp), ← hw.sums (by decide), if_neg (by decide +kernel), hall, triad_avg]
    refine ⟨_, rfl, ?_⟩
    rw [show (chromaSum (triad :: List.replicate 30 silentFrame) none).2 = F32.ofNat 31 from rfl, triad_bonus.2]
    decide +kernel

end Verif.Props
