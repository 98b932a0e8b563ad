/-
Property theorem C93: frame weights of the key detection (src/lib.rs lines 1235-1287, detector.rs lines 345-367, 984-1001).
-/
import Verif.Props.ReportKey

namespace Verif.Props
open Verif Verif.Keys Verif.KeyDet Verif.Analyze F32

/-- two tracks that differ only in frames of weight 0 (or less) -/
inductive Hidden : List F32 → List (List F32) → List (List F32) → Prop
  | nil : Hidden [] [] []
  | same {w a b} (v : F32) (x : List F32) (h : Hidden w a b) : Hidden (v :: w) (x :: a) (x :: b)
  | muted {w a b} (v : F32) (x y : List F32) (hv : v ≤ 0) (hl : x.length = y.length) (h : Hidden w a b) :
      Hidden (v :: w) (x :: a) (y :: b)

theorem Hidden.lengths {w a b} (h : Hidden w a b) : a.length = w.length ∧ b.length = w.length := by
  induction h with
  | nil => exact ⟨rfl, rfl⟩
  | same _ _ _ ih => exact ⟨by simp [ih.1], by simp [ih.2]⟩
  | muted _ _ _ _ _ _ ih => exact ⟨by simp [ih.1], by simp [ih.2]⟩

theorem Hidden.rows {w a b} (h : Hidden w a b) : a.map List.length = b.map List.length := by
  induction h with
  | nil => rfl
  | same _ _ _ ih => simp [ih]
  | muted _ _ _ _ hl _ ih => simp [ih, hl]

theorem Hidden.take {w a b} (h : Hidden w a b) : ∀ n, Hidden (w.take n) (a.take n) (b.take n) := by
  induction h with
  | nil => intro n; simp; exact .nil
  | same v x _ ih =>
    intro n
    cases n with
    | zero => exact .nil
    | succ n => exact .same v x (ih n)
  | muted v x y hv hl _ ih =>
    intro n
    cases n with
    | zero => exact .nil
    | succ n => exact .muted v x y hv hl (ih n)

theorem Hidden.drop {w a b} (h : Hidden w a b) : ∀ n, Hidden (w.drop n) (a.drop n) (b.drop n) := by
  induction h with
  | nil => intro n; simp; exact .nil
  | same v x h ih =>
    intro n
    cases n with
    | zero => exact .same v x h
    | succ n => exact ih n
  | muted v x y hv hl h ih =>
    intro n
    cases n with
    | zero => exact .muted v x y hv hl h
    | succ n => exact ih n

theorem Hidden.dots {w a b} (h : Hidden w a b) (t : List F32) : weightedSumDot a (some w) t = weightedSumDot b (some w) t := by
  suffices key : ∀ acc : F32, (a.zip w).foldl (fun acc p => if 0 < p.2 then acc + p.2 * dot p.1 t else acc) acc =
      (b.zip w).foldl (fun acc p => if 0 < p.2 then acc + p.2 * dot p.1 t else acc) acc from key 0
  intro acc
  induction h generalizing acc with
  | nil => rfl
  | same v x _ ih => simp only [List.zip_cons_cons, List.foldl_cons]; exact ih _
  | muted v x y hv _ _ ih =>
    have : ¬ (0 : F32) < v := fun h => F32.not_le_of_lt h hv
    simp only [List.zip_cons_cons, List.foldl_cons, if_neg this]; exact ih _

theorem Hidden.sums {w a b} (h : Hidden w a b) : chromaSum a (some w) = chromaSum b (some w) := by
  unfold chromaSum
  dsimp only
  generalize ((List.replicate 12 0, 0) : List F32 × F32) = acc
  induction h generalizing acc with
  | nil => rfl
  | same v x _ ih => simp only [List.zip_cons_cons, List.foldl_cons]; exact ih _
  | muted v x y hv _ _ ih => simp only [List.zip_cons_cons, List.foldl_cons, if_pos hv]; exact ih _

theorem Hidden.empty_iff {w a b} (h : Hidden w a b) : a = [] ↔ b = [] := by
  have := h.lengths
  rw [← List.length_eq_zero_iff, ← List.length_eq_zero_iff, this.1, this.2]

theorem any_length {a b : List (List F32)} (h : a.map List.length = b.map List.length) :
    a.any (fun c => c.length != 12) = b.any (fun c => c.length != 12) := by
  have e : ∀ l : List (List F32), l.any (fun c => c.length != 12) = (l.map List.length).any (fun n => n != 12) := by
    intro l; rw [List.any_map]; rfl
  rw [e, e, h]

theorem Hidden.detectKey {ord T w a b} (h : Hidden w a b) : detectKey ord a T (some w) = detectKey ord b T (some w) := by
  have hraw : rawScores a T (some w) = rawScores b T (some w) := by
    unfold rawScores
    simp only [h.dots]
  unfold KeyDet.detectKey
  simp only [hraw, h.empty_iff, any_length h.rows, h.lengths.1, h.lengths.2]

theorem Hidden.detectWith {ord T w a b modeOn tm fm bonus bw} (h : Hidden w a b) :
    detectWith ord a T (some w) modeOn tm fm bonus bw = detectWith ord b T (some w) modeOn tm fm bonus bw := by
  unfold KeyDet.detectWith detectKeyMode
  simp only [h.detectKey, h.sums]

theorem Hidden.seg {w a b} (h : Hidden w a b) (s len : ℕ) (hl : s + len ≤ w.length) :
    segWeights (some w) s len = some ((w.drop s).take len) ∧ Hidden ((w.drop s).take len) ((a.drop s).take len) ((b.drop s).take len) := by
  refine ⟨?_, (h.drop s).take len⟩
  unfold segWeights
  rw [Option.bind_some, if_pos hl]

theorem Hidden.accSegments {det : List (List F32) → Option (List F32) → R Res} (hdet : ∀ w a b, Hidden w a b → det a (some w) = det b (some w))
    {w a b} (h : Hidden w a b) {minC sw : F32} {len : ℕ} : ∀ (starts : List ℕ) (acc : Acc), (∀ s ∈ starts, s + len ≤ w.length) →
    KeyDet.accSegments det a (some w) minC sw len starts acc = KeyDet.accSegments det b (some w) minC sw len starts acc
  | [], acc, _ => by rw [KeyDet.accSegments, KeyDet.accSegments]
  | s :: ss, acc, hs => by
    obtain ⟨e1, e2⟩ := h.seg s len (hs s (by simp))
    rw [KeyDet.accSegments, KeyDet.accSegments, e1, hdet _ _ _ e2]
    simp only [fun acc => Hidden.accSegments hdet h (minC := minC) (sw := sw) ss acc (fun x hx => hs x (by simp [hx]))]

theorem Hidden.accScales {det : List (List F32) → Option (List F32) → R Res} (hdet : ∀ w a b, Hidden w a b → det a (some w) = det b (some w))
    {w a b} (h : Hidden w a b) {minC : F32} {hop : ℕ} {sws : Option (List F32)} : ∀ (lens : List ℕ) (i : ℕ) (acc : Acc),
    KeyDet.accScales det a (some w) minC hop sws i lens acc = KeyDet.accScales det b (some w) minC hop sws i lens acc
  | [], i, acc => by rw [KeyDet.accScales, KeyDet.accScales]
  | len :: lens, i, acc => by
    have hseg : ∀ sw acc, KeyDet.accSegments det a (some w) minC sw len (segStarts w.length len (max hop 1)) acc =
        KeyDet.accSegments det b (some w) minC sw len (segStarts w.length len (max hop 1)) acc := by
      intro sw acc
      refine Hidden.accSegments hdet h _ acc ?_
      intro s hs
      exact ((mem_segStarts (by omega)).1 hs).1
    rw [KeyDet.accScales, KeyDet.accScales]
    simp only [h.lengths.1, h.lengths.2, hseg, Hidden.accScales hdet h lens (i + 1)]

theorem slice_window {α} {l : List α} {s len : ℕ} (h : s + len ≤ l.length) : slice l s (s + len) = .ok ((l.drop s).take len) := by
  unfold slice
  rw [if_pos ⟨by omega, h⟩]
  congr 1
  first
    | rw [Nat.add_sub_cancel_left]
    | rw [List.drop_take, Nat.add_sub_cancel_left]

theorem Hidden.segLoop {det : List (List F32) → Option (List F32) → R Res} (hdet : ∀ w a b, Hidden w a b → det a (some w) = det b (some w))
    {w a b} (h : Hidden w a b) {minC : F32} {len : ℕ} : ∀ (starts : List ℕ) (acc : List (Key × F32) × ℕ), (∀ s ∈ starts, s + len ≤ w.length) →
    Analyze.segLoop det a (some w) minC len starts acc = Analyze.segLoop det b (some w) minC len starts acc
  | [], acc, _ => by rw [Analyze.segLoop, Analyze.segLoop]
  | s :: ss, acc, hs => by
    have hle := hs s (by simp)
    rw [Analyze.segLoop, Analyze.segLoop, slice_window (by rw [h.lengths.1]; exact hle), slice_window (by rw [h.lengths.2]; exact hle)]
    dsimp only
    rw [slice_window hle]
    simp only [R.ok_bind, R.pure_eq_ok]
    rw [hdet _ _ _ ((h.drop s).take len)]
    simp only [fun acc => Hidden.segLoop hdet h (minC := minC) ss acc (fun x hx => hs x (by simp [hx]))]

/-- **C93.** Frames of weight 0 have no say in the key: whichever detector is configured (ensemble, multi-scale, segment
vote, single detection, with or without heuristics), replacing such frames by any others changes neither the key nor
its confidence nor the ranking. -/
theorem C93_muted (L : Lib) (c : Config) (w : List F32) (cs cs' : List (List F32)) (h : Hidden w cs cs') :
    keyCall L c cs (some w) = keyCall L c cs' (some w) := by
  have hdet : ∀ w a b, Hidden w a b → detect L c a (some w) = detect L c b (some w) := fun _ _ _ h => h.detectWith
  have hvote : segVote L c cs (some w) = segVote L c cs' (some w) := by
    unfold segVote
    dsimp only
    rw [h.lengths.1, h.lengths.2, h.segLoop hdet, hdet _ _ _ h]
    intro s hs
    exact ((mem_segStarts (by show 1 ≤ _; exact Nat.le_max_right _ _)).1 hs).1
  have hens : detectEnsemble L.ord L.ord2 cs (some w) c.ensembleKK c.ensembleTemp =
      detectEnsemble L.ord L.ord2 cs' (some w) c.ensembleKK c.ensembleTemp := by
    unfold detectEnsemble
    simp only [h.detectKey]
  have hms : ∀ lens hop mc sws m tm fm bo bw, detectMultiScale L.ord cs (templates c) (some w) lens hop mc sws m tm fm bo bw =
      detectMultiScale L.ord cs' (templates c) (some w) lens hop mc sws m tm fm bo bw := by
    intro lens hop mc sws m tm fm bo bw
    unfold detectMultiScale
    dsimp only
    simp only [h.empty_iff, h.detectWith,
      Hidden.accScales (det := fun c' w => KeyDet.detectWith L.ord c' (templates c) w m tm fm bo bw) (fun _ _ _ h => Hidden.detectWith h) h]
  unfold keyCall
  rw [hvote, hens, hdet _ _ _ h]
  simp only [hms, h.lengths.1, h.lengths.2]

/-- what is assumed of `powf` here: C's rules for the exponent 0 and the base 0 -/
structure PowZero (M : Libm) : Prop where
  exp : ∀ x, M.powf x 0 = 1
  base : ∀ p, 0 < p → M.powf 0 p = 0

theorem zeroish_mul (x : F32) : F32.max (x * 0) 0 = 0 ∧ F32.max (0 * x) 0 = 0 := by
  cases x with
  | nan => decide +kernel
  | inf n => cases n <;> decide +kernel
  | fin q h =>
    have e : (fin q h) * 0 = 0 := by rw [zero_def, mul_fin, mul_zero, rnd_zero_eq]
    have e' : 0 * (fin q h) = 0 := by rw [zero_def, mul_fin, zero_mul, rnd_zero_eq]
    rw [e, e']
    decide +kernel

theorem zero_ne_nan : (0 : F32) ≠ nan := by decide +kernel

theorem max_zero_of_nonpos {x : F32} (h : x ≤ 0) : F32.max x 0 = 0 :=
  F32.le_antisymm (F32.max_le h (F32.le_refl zero_ne_nan)) (F32.le_max_right zero_ne_nan)

theorem max_zero_of_pos {x : F32} (h : 0 < x) : F32.max x 0 = x :=
  F32.le_antisymm (F32.max_le (F32.le_refl (F32.ne_nan_right (F32.le_of_lt h))) (F32.le_of_lt h)) (F32.le_max_left (F32.ne_nan_right (F32.le_of_lt h)))

theorem max_zero_of_not_pos {x : F32} (h : ¬ 0 < x) : F32.max x 0 = 0 := by
  by_cases hn : x = nan
  · subst hn; decide +kernel
  · exact max_zero_of_nonpos (F32.le_of_not_lt hn zero_ne_nan h)

theorem zero_div_pos {m : F32} (hm : 0 < m) : (0 : F32) / m = 0 := by
  rcases m with _ | n | ⟨q, hq⟩
  · exact absurd hm (by decide +kernel)
  · cases n <;> decide +kernel
  · rw [zero_def] at hm ⊢
    have hq0 : q ≠ 0 := by
      rintro rfl
      exact absurd hm (by simp)
    rw [div_fin hq0, zero_div, rnd_zero_eq]

theorem div_nonpos_max {e m : F32} (he : e ≤ 0) (hm : 0 < m) : F32.max (e / m) 0 = 0 := by
  apply max_zero_of_not_pos
  intro hp
  have hn : e / m ≠ nan := F32.ne_nan_right (F32.le_of_lt hp)
  have h0 : (0 : F32) / m = 0 := zero_div_pos hm
  have := F32.div_le_div_right he hm hn (by rw [h0]; exact zero_ne_nan)
  rw [h0] at this
  exact F32.not_le_of_lt hp this

/-- **C93.** The weights: one per frame, none negative (and never NaN), at least ten of them positive; a frame without
energy has weight 0 (energy exponent above 0), a frame less tonal than `key_min_tonalness` has weight 0 (tonalness exponent
above 0). -/
theorem C93_weights (M : Libm) (hM : PowZero M) (c : Config) (cs : List (List F32)) (es w : List F32)
    (h : frameWeights M c cs es = some w) :
    w.length = cs.length ∧ es.length = cs.length ∧ (∀ x ∈ w, 0 ≤ x) ∧ 10 ≤ (w.filter (fun x => decide (0 < x))).length ∧
    (0 < c.energyPower → ∀ i, i < cs.length → es.getD i 0 ≤ 0 → w.getD i 0 = 0) ∧
    (0 < c.tonalnessPower → ∀ i, i < cs.length → tonalness M (cs.getD i []) < c.minTonalness → w.getD i 0 = 0) := by
  unfold frameWeights at h
  by_cases h1 : (c.enableFrameWeighting && decide (es ≠ []) && decide (es.length = cs.length)) = true
  swap
  · rw [if_neg h1] at h; cases h
  rw [if_pos h1] at h
  dsimp only at h
  by_cases h2 : F32.sum (allWeights M c cs es) ≤ 1e-12 ∨ ((allWeights M c cs es).filter (fun x => decide (0 < x))).length < 10
  · rw [if_pos h2] at h; cases h
  rw [if_neg h2] at h
  cases h
  simp only [Bool.and_eq_true, decide_eq_true_eq] at h1
  obtain ⟨⟨_, hne⟩, hlen⟩ := h1
  push Not at h2
  have hl : (allWeights M c cs es).length = cs.length := by
    unfold allWeights
    dsimp only
    rw [List.length_zipWith, hlen, Nat.min_self]
  have hget : ∀ i, i < cs.length → (allWeights M c cs es).getD i 0 =
      frameWeight M c (F32.max ((sortAsc id es).getD (es.length / 2) 0) 1e-12) (cs.getD i []) (es.getD i 0) := by
    intro i hi
    unfold allWeights
    dsimp only
    have hi' : i < es.length := by omega
    simp only [List.getD_eq_getElem?_getD, List.getElem?_zipWith, List.getElem?_eq_getElem hi, List.getElem?_eq_getElem hi',
      Option.map_some, Option.bind_some, Option.getD_some]
    try rfl
  refine ⟨hl, hlen, ?_, h2.2, ?_, ?_⟩
  · intro x hx
    unfold allWeights at hx
    dsimp only at hx
    obtain ⟨i, hi, rfl⟩ := List.mem_iff_getElem.1 hx
    rw [List.getElem_zipWith]
    unfold frameWeight
    exact F32.le_max_right zero_ne_nan
  · intro hp i hi he
    rw [hget i hi]
    unfold frameWeight
    dsimp only
    have hm : (0 : F32) < F32.max ((sortAsc id es).getD (es.length / 2) 0) 1e-12 :=
      F32.lt_of_lt_of_le (by decide +kernel) (F32.le_max_right (b := 1e-12) (by decide +kernel))
    have e0 : F32.max (es.getD i 0 / F32.max ((sortAsc id es).getD (es.length / 2) 0) 1e-12) 0 = 0 := div_nonpos_max he hm
    have e1 : F32.max c.energyPower 0 = c.energyPower := max_zero_of_pos hp
    rw [e0, e1, hM.base _ hp]
    exact (zeroish_mul _).1
  · intro hp i hi ht
    rw [hget i hi]
    unfold frameWeight
    dsimp only
    have e1 : F32.max c.tonalnessPower 0 = c.tonalnessPower := max_zero_of_pos hp
    rw [if_pos ht, e1, hM.base _ hp]
    exact (zeroish_mul _).2

/-- **C93, violated (tonalness exponent 0).** With `key_tonalness_power = 0` the gate `key_min_tonalness` does nothing:
`0^0 = 1`, and the weights do not depend on the chroma vectors at all. -/
theorem C93_violated_gate (M : Libm) (hM : PowZero M) (c : Config) (hp : ¬ 0 < c.tonalnessPower) (cs cs' : List (List F32))
    (hl : cs.length = cs'.length) (es : List F32) : frameWeights M c cs es = frameWeights M c cs' es := by
  have hw : ∀ med a b e, frameWeight M c med a e = frameWeight M c med b e := by
    intro med a b e
    unfold frameWeight
    dsimp only
    rw [max_zero_of_not_pos hp, hM.exp, hM.exp]
  have hall : allWeights M c cs es = allWeights M c cs' es := by
    unfold allWeights
    dsimp only
    generalize F32.max ((sortAsc id es).getD (es.length / 2) 0) 1e-12 = med
    induction cs generalizing cs' es with
    | nil => cases cs' with
      | nil => rfl
      | cons _ _ => cases hl
    | cons a cs ih => cases cs' with
      | nil => cases hl
      | cons b cs' => cases es with
        | nil => rfl
        | cons e es => rw [List.zipWith_cons_cons, List.zipWith_cons_cons, hw med a b e, ih cs' (by simpa using hl) es]
  unfold frameWeights
  rw [hall, hl]

theorem filter_zipWith_le {α β γ} (f : α → β → γ) (p : γ → Bool) (q : α → Bool) (h : ∀ a b, p (f a b) = true → q a = true) :
    ∀ (l : List α) (m : List β), ((List.zipWith f l m).filter p).length ≤ (l.filter q).length
  | [], m => by simp
  | a :: l, [] => by simp
  | a :: l, b :: m => by
    have ih := filter_zipWith_le f p q h l m
    rw [List.zipWith_cons_cons, List.filter_cons, List.filter_cons]
    split_ifs with h1 h2 h2
    · simpa using ih
    · exact absurd (h a b h1) h2
    · rw [List.length_cons]; omega
    · exact ih

/-- **C93, violated (fewer than ten tonal frames).** When fewer than ten frames reach `key_min_tonalness`, the weights are
dropped altogether, so that every frame counts fully, including all those the setting excludes. -/
theorem C93_violated_fallback (M : Libm) (hM : PowZero M) (c : Config) (hp : 0 < c.tonalnessPower) (cs : List (List F32)) (es : List F32)
    (h : (cs.filter (fun ch => !decide (tonalness M ch < c.minTonalness))).length < 10) : frameWeights M c cs es = none := by
  unfold frameWeights
  by_cases h1 : (c.enableFrameWeighting && decide (es ≠ []) && decide (es.length = cs.length)) = true
  swap
  · rw [if_neg h1]
  rw [if_pos h1]
  dsimp only
  suffices hlt : ((allWeights M c cs es).filter (fun x => decide (0 < x))).length < 10 by rw [if_pos (.inr hlt)]
  refine Nat.lt_of_le_of_lt (filter_zipWith_le _ _ _ ?_ cs es) h
  intro a e ha
  simp only [decide_eq_true_eq, Bool.not_eq_true', decide_eq_false_iff_not] at ha ⊢
  intro ht
  unfold frameWeight at ha
  dsimp only at ha
  rw [if_pos ht, max_zero_of_pos hp, hM.base _ hp, (zeroish_mul _).2] at ha
  exact absurd ha (by decide +kernel)

/-- **C93.** Tonalness is in `[0, 1]` or NaN; a silent frame has tonalness 0 and a frame with a single pitch class has
tonalness 1 (for a logarithm with `ln 1 = 0` and `ln 12` a positive number). -/
theorem C93_tonalness (M : Libm) (h1 : M.ln 1 = 0) (h12 : 0 < M.ln 12) (hf : (M.ln 12).isFinite = true) :
    (∀ ch, UnitOrNaN (tonalness M ch)) ∧ tonalness M (List.replicate 12 0) = 0 ∧
    ∀ (i : ℕ) (x : F32), i < 12 → 1e-12 < x → x.isFinite = true → tonalness M ((List.replicate 12 0).set i x) = 1 := by
  have hsil : F32.sum (List.replicate 12 (0 : F32)) ≤ 1e-12 := by decide +kernel
  refine ⟨?_, by unfold tonalness; dsimp only; rw [if_pos hsil], ?_⟩
  · intro ch
    unfold tonalness
    dsimp only
    split_ifs
    · right; decide +kernel
    · exact clamp_uon _
  · intro i x hi hx hxf
    have hx0 : 0 < x := F32.lt_of_lt_of_le (by decide +kernel : (0 : F32) < 1e-12) (F32.le_of_lt hx)
    have hs : F32.sum ((List.replicate 12 0).set i x) = x := by
      interval_cases i <;> simp [F32.sum, List.replicate, List.set, zero_add', add_zero']
    have h0 : (0 : F32) / x = 0 := zero_div_pos hx0
    have hxx : x / x = 1 := Period.div_self hx0 hxf
    have hn0 : ¬ (1e-12 : F32) < 0 := by decide +kernel
    have hn1 : (1e-12 : F32) < 1 := by decide +kernel
    have hm : (1 : F32) * 0 = 0 := by decide +kernel
    have hz : (0 : F32) - 0 = 0 := by decide +kernel
    have he : ((List.replicate 12 0).set i x).foldl (fun e y => if 1e-12 < y / x then e - y / x * M.ln (y / x) else e) 0 = 0 := by
      interval_cases i <;> simp [List.replicate, List.set, h0, hxx, hn0, hn1, h1, hm, hz]
    unfold tonalness
    dsimp only
    rw [hs, if_neg (F32.not_le_of_lt hx), he, zero_div_pos h12]
    decide +kernel

/-- a library with C's rules for powers of and to 0, and roughly right logarithms -/
def powLib : Libm := { Libm.demo with
  powf := fun x p => if p = 0 then 1 else if x = 0 then 0 else x
  ln := fun x => if x = 1 then 0 else if x = 12 then 2.5 else if x < 0.1 then -2.5 else -1 }

theorem powLib_zero : PowZero powLib := by
  refine ⟨fun x => by simp [powLib], fun p hp => ?_⟩
  have : p ≠ 0 := by rintro rfl; exact absurd hp (by decide +kernel)
  simp [powLib, this]

-- twelve frames with one pitch class and one with two: the second kind is gated
example : (match frameWeights powLib { minTonalness := 0.8 } (List.replicate 12 [1,0,0,0,0,0,0,0,0,0,0,0] ++ [[1,1,0,0,0,0,0,0,0,0,0,0]])
      (List.replicate 13 1) with
    | some w => decide (w = List.replicate 12 1 ++ [0])
    | none => false) = true := by decide +kernel

-- with exponent 0 the gate is gone; with nine frames the weights are gone
example : (match frameWeights powLib { minTonalness := 0.8, tonalnessPower := 0 } (List.replicate 12 [1,0,0,0,0,0,0,0,0,0,0,0] ++ [[1,1,0,0,0,0,0,0,0,0,0,0]])
      (List.replicate 13 1) with
    | some w => decide (w = List.replicate 13 1)
    | none => false) = true ∧
    frameWeights powLib { minTonalness := 0.8 } (List.replicate 9 [1,0,0,0,0,0,0,0,0,0,0,0] ++ List.replicate 9 [1,1,0,0,0,0,0,0,0,0,0,0])
      (List.replicate 18 1) = none := by decide +kernel

-- a muted frame in the middle
example : Hidden [1, 0, 1] [List.replicate 12 1, List.replicate 12 0.5, List.replicate 12 0] [List.replicate 12 1, List.replicate 12 0, List.replicate 12 0] :=
  .same _ _ (.muted _ _ _ (by decide +kernel) rfl (.same _ _ .nil))

end Verif.Props
