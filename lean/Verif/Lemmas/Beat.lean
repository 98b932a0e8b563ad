/-
Lemmas on the beat-tracking model: shape of the Viterbi path, closed form of `trackBeats`,
distances, sorting with NaN checks.
-/
import Verif.Model.Beat
import Verif.F32.Bounds

namespace Verif.Beat
open Verif F32

theorem sortAscP_ok {α} {key : α → F32} {l l' : List α} (h : sortAscP key l = .ok l') :
    l' = sortAsc key l ∧ l'.Perm l ∧ l'.Pairwise (fun a b => key a ≤ key b) := by
  unfold sortAscP at h
  split_ifs at h with hn
  obtain rfl := Except.ok.inj h
  refine ⟨rfl, sortAsc_perm l, ?_⟩
  by_cases h2 : 2 ≤ l.length
  · apply sortAsc_pairwise
    intro a ha hnan
    apply hn
    unfold sortMeetsNaN
    rw [Bool.and_eq_true, List.any_eq_true]
    exact ⟨by simpa using h2, a, ha, isNaN_iff.2 hnan⟩
  · match l, h2 with
    | [], _ => exact List.Pairwise.nil
    | [a], _ => exact List.pairwise_singleton _ _
    | a :: b :: l, h2 => simp at h2

theorem sortAscP_of_ne_nan {α} {key : α → F32} {l : List α} (h : ∀ a ∈ l, key a ≠ nan) :
    sortAscP key l = .ok (sortAsc key l) := by
  unfold sortAscP; rw [sortMeetsNaN_false h]; rfl

/-! ### Shape of the decoded path -/

theorem argmax0_lt (f : ℕ → F32) {n : ℕ} (hn : 0 < n) : (argmax0 f n).2 < n := by
  have key : ∀ n, (argmax0 f n).2 = 0 ∨ (argmax0 f n).2 < n := by
    intro n
    induction n with
    | zero => left; rfl
    | succ n ih =>
      have e : argmax0 f (n + 1) = if (argmax0 f n).1 < f n then (f n, n) else argmax0 f n := by
        unfold argmax0; rw [List.range_succ, List.foldl_append]; rfl
      rw [e]
      split_ifs
      · right; simp
      · omega
  rcases key n with h | h <;> omega

theorem viterbiStep_bp (trans : List (List F32)) (v em : List F32) (i : ℕ) :
    (viterbiStep trans v em).2.getD i 0 < NS := by
  unfold viterbiStep
  dsimp only
  rw [List.map_map, List.getD_eq_getElem?_getD, List.getElem?_map]
  cases h : (List.range NS)[i]? with
  | none => exact (show 0 < NS by decide)
  | some j => exact argmax0_lt _ (by decide)

theorem viterbiRun_bps (trans : List (List F32)) (ems : List (List F32)) (v : List F32) :
    (viterbiRun trans v ems).2.length = ems.length ∧
    ∀ bp ∈ (viterbiRun trans v ems).2, ∀ i, bp.getD i 0 < NS := by
  induction ems generalizing v with
  | nil => exact ⟨rfl, by simp [viterbiRun]⟩
  | cons em ems ih =>
    obtain ⟨h1, h2⟩ := ih (viterbiStep trans v em).1
    have e2 : (viterbiRun trans v (em :: ems)).2 =
      (viterbiStep trans v em).2 :: (viterbiRun trans (viterbiStep trans v em).1 ems).2 := rfl
    rw [e2]
    refine ⟨by simp [h1], ?_⟩
    intro bp hbp
    rcases List.mem_cons.1 hbp with rfl | hbp
    · exact viterbiStep_bp trans v em
    · exact h2 bp hbp

theorem backtrace_shape {bps : List (List ℕ)} (h : ∀ bp ∈ bps, ∀ i, bp.getD i 0 < NS) {f : ℕ} (hf : f < NS) :
    (backtrace bps f).length = bps.length + 1 ∧ ∀ s ∈ backtrace bps f, s < NS := by
  induction bps with
  | nil => exact ⟨rfl, by simp [backtrace, hf]⟩
  | cons bp bps ih =>
    obtain ⟨h1, h2⟩ := ih (fun b hb => h b (by simp [hb]))
    have e : backtrace (bp :: bps) f = bp.getD ((backtrace bps f).headD 0) 0 :: backtrace bps f := rfl
    rw [e]
    refine ⟨by simp [h1], ?_⟩
    intro s hs
    rcases List.mem_cons.1 hs with rfl | hs
    · exact h bp (by simp) _
    · exact h2 s hs

theorem viterbi_shape (trans : List (List F32)) {em : List (List F32)} (hne : em ≠ []) :
    ∃ path, viterbi trans em = .ok path ∧ path.length = em.length ∧ ∀ s ∈ path, s < NS := by
  cases em with
  | nil => exact absurd rfl hne
  | cons e0 ems =>
    have hb := viterbiRun_bps trans ems (viterbiInit e0)
    have := backtrace_shape hb.2 (argmax0_lt (fun s => (viterbiRun trans (viterbiInit e0) ems).1.getD s 0)
      (show 0 < NS by decide))
    exact ⟨_, rfl, by rw [this.1, hb.1]; simp, this.2⟩

/-! ### Closed form of the tracker -/

/-- the beats of the lattice anchored at `first`, frame by frame -/
def lattice (M : Libm) (bpm first : F32) (onsets : List F32) (n : ℕ) : List BeatPos :=
  (List.range n).filterMap (fun t => beatAt bpm first onsets (emission M onsets (frameTime bpm first t)) t)

theorem filterMap_zipIdx {α β} (f : ℕ → Option β) : ∀ (l : List α) (k : ℕ),
    (l.zipIdx k).filterMap (fun p => f p.2) = (List.range' k l.length).filterMap f := by
  intro l
  induction l with
  | nil => intro k; rfl
  | cons a l ih =>
    intro k
    rw [List.zipIdx_cons, List.length_cons, List.range'_succ, List.filterMap_cons, List.filterMap_cons, ih]

theorem extract_eq {M : Libm} {bpm first : F32} {onsets : List F32} {n : ℕ} {path : List ℕ} {em : List (List F32)}
    {states : List F32} (hs : states.length = NS) (hh : onsets.head? = some first)
    (hem : em = (List.range n).map (fun t => states.map (fun _ => emission M onsets (frameTime bpm first t))))
    (hn : 0 < n) (hl : path.length = n) (hp : ∀ s ∈ path, s < NS) :
    extractBeats bpm onsets path em = sortAscP BeatPos.time (lattice M bpm first onsets n) := by
  unfold extractBeats
  have h1 : ¬ (path = [] ∨ em = []) := by
    rintro (rfl | h)
    · simp at hl; omega
    · rw [h] at hem
      have := congrArg List.length hem
      simp at this; omega
  rw [if_neg h1, hh]
  dsimp only
  congr 1
  unfold lattice
  rw [List.range_eq_range', ← hl, ← filterMap_zipIdx]
  apply List.filterMap_congr
  rintro ⟨s, t⟩ hst
  have hm := List.mem_zipIdx hst
  have ht : t < n := by omega
  have hsl : s < NS := hp s (by rw [hm.2.2]; exact List.getElem_mem _)
  dsimp only
  congr 1
  rw [hem, List.getD_eq_getElem?_getD (l := List.map _ _), List.getElem?_map, List.getElem?_range ht]
  simp only [Option.map_some, Option.getD_some]
  rw [List.getD_eq_getElem?_getD, List.getElem?_map, List.getElem?_eq_getElem (by omega)]
  rfl

theorem sigma_ok : ¬ (SIGMA * SIGMA ≤ EPS) := by decide +kernel

theorem emissionMatrix_eq {M : Libm} {bpm first last : F32} {onsets states : List F32}
    (hh : onsets.head? = some first) (hl : onsets.getLast? = some last) :
    emissionMatrix M bpm onsets states = (numFrames bpm first last).map (fun n => (List.range n).map (fun t =>
      states.map (fun _ => emission M onsets (frameTime bpm first t)))) := by
  unfold emissionMatrix
  rw [hh, hl]
  dsimp only
  cases numFrames bpm first last with
  | error e => rfl
  | ok n =>
    show (if SIGMA * SIGMA ≤ EPS then _ else _) = _
    rw [if_neg sigma_ok]; rfl

theorem numFrames_pos {bpm a b : F32} {n : ℕ} (h : numFrames bpm a b = .ok n) : 0 < n := by
  unfold numFrames at h
  dsimp only at h
  split_ifs at h
  have := Except.ok.inj h
  omega

/-- the result of the tracker, with the decoded path eliminated -/
theorem trackBeats_eq {M : Libm} {bpm first last : F32} {onsets : List F32} (hb : ¬ (bpm ≤ EPS ∨ 300 < bpm))
    (hh : onsets.head? = some first) (hl : onsets.getLast? = some last) :
    trackBeats M bpm onsets = (numFrames bpm first last).bind (fun n =>
      sortAscP BeatPos.time (lattice M bpm first onsets n)) := by
  unfold trackBeats
  have hne : onsets ≠ [] := by rintro rfl; simp at hh
  rw [if_neg hb, if_neg hne, emissionMatrix_eq hh hl]
  cases hn : numFrames bpm first last with
  | error e => rfl
  | ok n =>
    have hpos := numFrames_pos hn
    show (viterbi transMatrix _).bind _ = _
    obtain ⟨path, h1, h2, h3⟩ := viterbi_shape transMatrix
      (em := (List.range n).map (fun t => (stateBpms bpm).map (fun _ => emission M onsets (frameTime bpm first t))))
      (by intro h; rw [List.map_eq_nil_iff, List.range_eq_nil] at h; omega)
    rw [h1]
    exact extract_eq (by simp [stateBpms, NS]) hh rfl hpos (by simpa using h2) h3

/-! ### Distances -/

/-- `minDist` is the smallest distance, or infinite when no distance is a finite number -/
theorem minDist_spec (onsets : List F32) (t : F32) :
    0 ≤ minDist onsets t ∧
    (minDist onsets t = inf false ∨ ∃ o ∈ onsets, minDist onsets t = (o - t).abs) ∧
    ∀ o ∈ onsets, (o - t).abs ≠ nan → minDist onsets t ≤ (o - t).abs := by
  have key : ∀ (l : List F32) (m : F32), 0 ≤ m →
      let r := l.foldl (fun m o => let d := (o - t).abs; if d < m then d else m) m
      0 ≤ r ∧ r ≤ m ∧ (r = m ∨ ∃ o ∈ l, r = (o - t).abs) ∧ ∀ o ∈ l, (o - t).abs ≠ nan → r ≤ (o - t).abs := by
    intro l
    induction l with
    | nil => intro m hm; exact ⟨hm, F32.le_refl (ne_nan_right hm), Or.inl rfl, by simp⟩
    | cons a l ih =>
      intro m hm
      simp only [List.foldl_cons]
      by_cases hd : (a - t).abs < m
      · have h0 : 0 ≤ (a - t).abs := by
          cases hx : (a - t) with
          | nan => rw [hx] at hd; exact absurd rfl (ne_nan_left' hd)
          | inf s => exact abs_nonneg (by simp)
          | fin v h => exact abs_nonneg (by simp)
        rw [if_pos hd]
        obtain ⟨i1, i2, i3, i4⟩ := ih _ h0
        refine ⟨i1, le_trans i2 (le_of_lt hd), Or.inr ?_, ?_⟩
        · rcases i3 with i3 | ⟨o, ho, i3⟩
          · exact ⟨a, by simp, i3⟩
          · exact ⟨o, by simp [ho], i3⟩
        · intro o ho hn
          rcases List.mem_cons.1 ho with rfl | ho
          · exact i2
          · exact i4 o ho hn
      · rw [if_neg hd]
        obtain ⟨i1, i2, i3, i4⟩ := ih _ hm
        refine ⟨i1, i2, ?_, ?_⟩
        · rcases i3 with i3 | ⟨o, ho, i3⟩
          · exact Or.inl i3
          · exact Or.inr ⟨o, by simp [ho], i3⟩
        · intro o ho hn
          rcases List.mem_cons.1 ho with rfl | ho
          · exact le_trans i2 (le_of_not_lt (ne_nan_right hm) hn hd)
          · exact i4 o ho hn
  obtain ⟨h1, _, h3, h4⟩ := key onsets (inf false) (by decide +kernel)
  exact ⟨h1, h3, h4⟩

/-- A libm whose `exp` is small on clearly negative arguments (the real `expf(-2.3125)` is 0.0990). -/
def ExpSmall (M : Libm) : Prop := ∀ x : F32, x ≤ -2.3125 → ¬ (0.1 : F32) < M.exp x

theorem emission_arg_le {d : F32} (h : 0.054 < d) : -(d * d) / (2 * (SIGMA * SIGMA)) ≤ -2.3125 := by
  have hc : ∃ h, (2 * (SIGMA * SIGMA) : F32) = fin (10737419 / 8589934592) h := ⟨by decide +kernel, by decide +kernel⟩
  obtain ⟨hh, e⟩ := hc
  have h054 : ∃ h, (0.054 : F32) = fin (14495515 / 268435456) h := ⟨by decide +kernel, by decide +kernel⟩
  obtain ⟨h5, e5⟩ := h054
  rw [e]
  rw [e5] at h
  cases d with
  | nan => exact absurd rfl (ne_nan_right' h)
  | inf s =>
    cases s
    · rw [inf_mul_inf]
      show (inf true / fin _ _ : F32) ≤ _
      rw [inf_div_fin]
      norm_num
      decide +kernel
    · exact absurd h (by simp [lt_def, toW])
  | fin v hv =>
    rw [fin_lt_fin] at h
    rw [mul_fin]
    have h2 : ((14495515 / 268435456 : ℚ)) * (14495515 / 268435456) ≤ v * v := by nlinarith
    have hr := rnd_mono h2
    have hsq : ∃ h, rnd ((14495515 / 268435456 : ℚ) * (14495515 / 268435456)) = fin (12524125 / 4294967296) h :=
      ⟨by decide +kernel, by decide +kernel⟩
    obtain ⟨h6, e6⟩ := hsq
    rw [e6] at hr
    cases hx : rnd (v * v) with
    | nan => rw [hx] at hr; exact absurd rfl (ne_nan_right hr)
    | inf s =>
      rw [hx] at hr
      cases s
      · show (inf true / fin _ _ : F32) ≤ _
        rw [inf_div_fin]
        norm_num
        decide +kernel
      · exact absurd hr (by simp [le_def, toW])
    | fin w hw =>
      rw [hx, fin_le_fin] at hr
      rw [neg_fin, div_fin (by norm_num)]
      refine le_trans (rnd_mono (show -w / (10737419 / 8589934592 : ℚ) ≤ -(12524125 / 4294967296) / (10737419 / 8589934592) by
        rw [neg_div, neg_div]
        apply neg_le_neg
        exact div_le_div_of_nonneg_right hr (by norm_num))) ?_
      decide +kernel

/-- a lattice beat lies within 54 ms of an onset -/
theorem near_onset {M : Libm} (hM : ExpSmall M) {onsets : List F32} {t : F32} (h : 0.1 < emission M onsets t) :
    ∃ o ∈ onsets, (o - t).abs ≤ 0.054 := by
  have h1 := minDist_spec onsets t
  have h2 : ¬ (0.054 : F32) < minDist onsets t := by
    intro hd
    exact hM _ (emission_arg_le hd) h
  have h3 := le_of_not_lt (ne_nan_right h1.1) (by decide +kernel) h2
  rcases h1.2.1 with h4 | ⟨o, ho, h4⟩
  · rw [h4] at h3
    exact absurd h3 (by decide +kernel)
  · exact ⟨o, ho, by rw [← h4]; exact h3⟩

theorem mem_lattice {M : Libm} {bpm first : F32} {onsets : List F32} {n : ℕ} {b : BeatPos} :
    b ∈ lattice M bpm first onsets n ↔ ∃ t < n, 0.1 < emission M onsets (frameTime bpm first t) ∧
      beatAt bpm first onsets (emission M onsets (frameTime bpm first t)) t = some b := by
  unfold lattice
  rw [List.mem_filterMap]
  constructor
  · rintro ⟨t, ht, h⟩
    refine ⟨t, List.mem_range.1 ht, ?_, h⟩
    unfold beatAt at h
    split_ifs at h with h1
    exact h1
  · rintro ⟨t, ht, _, h⟩
    exact ⟨t, List.mem_range.2 ht, h⟩

theorem beatAt_conf {bpm first : F32} {onsets : List F32} {e : F32} {t : ℕ} {b : BeatPos}
    (h : beatAt bpm first onsets e t = some b) : b.time = frameTime bpm first t ∧ 0 ≤ b.conf ∧ b.conf ≤ 1 := by
  unfold beatAt at h
  split_ifs at h with h1
  obtain rfl := Option.some.inj h
  refine ⟨rfl, ?_, min_le_right (by decide +kernel)⟩
  have he : 0 ≤ e := le_trans (show (0 : F32) ≤ 0.1 by decide +kernel) (le_of_lt h1)
  have hd := (minDist_spec onsets (frameTime bpm first t)).1
  generalize minDist onsets (frameTime bpm first t) = d at hd
  have halign : 0 ≤ (if d < 0.05 then 1 - d / 0.05 else 0 : F32) := by
    split_ifs with h2
    · have h05 : (0 : F32) < 0.05 := by decide +kernel
      have := div_le_one hd (le_of_lt h2) h05 (by decide +kernel)
      obtain ⟨v, hv, e', _, _⟩ := unit_cases this.1 this.2
      apply F32.sub_nonneg_of_le this.2
      rw [e', one_def]
      exact sub_fin_ne_nan rfl rfl
    · exact F32.le_refl (by decide +kernel)
  have h7 : 0 ≤ e * 0.7 := by
    apply F32.mul_nonneg he (by decide +kernel)
    obtain ⟨h7, e7⟩ : ∃ h, (0.7 : F32) = fin (11744051 / 16777216) h := ⟨by decide +kernel, by decide +kernel⟩
    rw [e7]
    rcases nonneg_cases he with rfl | ⟨v, hv, rfl, _⟩
    · rw [inf_mul_fin]; norm_num; simp
    · exact mul_fin_ne_nan rfl rfl
  apply F32.le_min _ F32.zero_le_one
  apply F32.add_nonneg h7
  apply F32.mul_nonneg halign (by decide +kernel)
  obtain ⟨h3, e3⟩ : ∃ h, (0.3 : F32) = fin (10066330 / 33554432) h := ⟨by decide +kernel, by decide +kernel⟩
  rw [e3]
  rcases nonneg_cases halign with hx | ⟨v, hv, hx, _⟩
  · rw [hx, inf_mul_fin]; norm_num; simp
  · rw [hx]; exact mul_fin_ne_nan rfl rfl

end Verif.Beat
