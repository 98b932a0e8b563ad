/-
Which of a series of equal attacks the frame-based onset detectors report (C113).
-/
import Verif.Props.Onset
import Verif.Props.NoveltyRise
import Verif.Props.Loudness
import Verif.Props.MetronomeAcf
import Mathlib.Data.List.Sort

namespace Verif.Props
open Verif Verif.Onset Verif.F32

/-- Specification: the frames at which the sound sets in, given for every frame whether it sounds. -/
def attacks (s : List Bool) : List ℕ :=
  (List.range s.length).filter (fun k => decide (1 ≤ k) && s.getD k false && !s.getD (k - 1) false)

/-- Specification: the rank of the percentile among `n` values. -/
def rankOf (n : ℕ) (p : F32) : ℕ := Nat.min (F32.ofNat n * p).toUsize (n - 1)

/-- Specification: an ordinary sound: magnitudes up to 2^30, audible in some bin above the lowest. -/
def PlainSound (l : List F32) : Prop :=
  l.length ≤ 2 ^ 20 ∧ (∀ x ∈ l, 0 ≤ x ∧ x ≤ rnd (pow2 30)) ∧ ∃ k, 1 ≤ k ∧ k < l.length ∧ rnd (pow2 (-30)) ≤ l.getD k 0

/-- a recording of one sound, on and off -/
def onOff (l : List F32) (s : List Bool) : List (List F32) := s.map (fun b => if b then l else List.replicate l.length 0)

theorem countP_two {N : ℕ} {A : ℕ → Bool} :
    (List.range N).countP (fun i => !A i) + (List.range N).countP A = N := by
  have := List.length_eq_countP_add_countP (l := List.range N) A
  rw [List.length_range] at this
  rw [Nat.add_comm]
  convert this.symm using 3
  simp

/-- a flux with two levels: all attacks or none -/
theorem two_level {N : ℕ} {A : ℕ → Bool} {v thr p : F32} {out : List ℕ} (hv : 0 < v) (hA : ∀ i, A i = true → A (i + 1) = false)
    (hp : IsPercentile ((List.range N).map (fun i => if A i then v else 0)) p thr)
    (ho : PicksPeaks (N + 1) ((List.range N).map (fun i => if A i then v else 0)) thr out) :
    out = if rankOf N p + (List.range N).countP A < N then ((List.range N).filter A).map (· + 1) else [] := by
  set f := (List.range N).map (fun i => if A i then v else 0) with hf
  have hfl : f.length = N := by rw [hf, List.length_map, List.length_range]
  have hget : ∀ i x, f[i]? = some x → i < N ∧ x = if A i then v else 0 := by
    intro i x h
    have hi : i < N := by rw [← hfl]; exact (List.getElem?_eq_some_iff.1 h).1
    rw [hf, List.getElem?_map, List.getElem?_range hi] at h
    exact ⟨hi, (Option.some.inj h).symm⟩
  have hget2 : ∀ i, i < N → f[i]? = some (if A i then v else 0) := by
    intro i hi
    rw [hf, List.getElem?_map, List.getElem?_range hi]; rfl
  obtain ⟨h1, h2, h3⟩ := hp
  obtain ⟨o1, o2, o3⟩ := ho
  rw [hfl] at h2 h3
  change rankOf N p + 1 ≤ _ at h2
  change N - rankOf N p ≤ _ at h3
  have hv0 : ¬ v ≤ 0 := fun h => F32.lt_irrefl _ (F32.lt_of_lt_of_le hv h)
  obtain ⟨i, hi, e⟩ := List.mem_map.1 h1
  have hc := countP_two (N := N) (A := A)
  by_cases hAi : A i
  · rw [if_pos hAi] at e
    have h3' : f.countP (fun x => decide (thr ≤ x)) = (List.range N).countP A := by
      rw [hf, List.countP_map]
      apply List.countP_congr
      intro j _
      simp only [Function.comp]
      rw [← e, decide_eq_true_iff]
      cases hj : A j
      · simp [hv0]
      · simpa using F32.le_refl (ne_nan_right (F32.le_of_lt hv))
    rw [h3'] at h3
    have hr : rankOf N p ≤ N - 1 := Nat.min_le_right _ _
    rw [if_neg (by omega)]
    rw [List.eq_nil_iff_forall_not_mem]
    intro k hk
    obtain ⟨_, _, x, hx, hlt, _⟩ := (o3 k).1 hk
    obtain ⟨_, rfl⟩ := hget _ _ hx
    rw [← e] at hlt
    split_ifs at hlt with h
    · exact F32.lt_irrefl _ hlt
    · exact F32.lt_irrefl _ (F32.lt_trans hv hlt)
  · rw [if_neg hAi] at e
    have h2' : f.countP (fun x => decide (x ≤ thr)) = (List.range N).countP (fun i => !A i) := by
      rw [hf, List.countP_map]
      apply List.countP_congr
      intro j _
      simp only [Function.comp]
      rw [← e, decide_eq_true_iff]
      cases hj : A j
      · simpa using F32.le_refl zero_ne_nan
      · simp [hv0]
    rw [h2'] at h2
    rw [if_pos (by omega)]
    apply List.Pairwise.eq_of_mem_iff (r := (· < ·)) o1
    · rw [List.pairwise_map]
      exact (List.Pairwise.filter _ List.pairwise_lt_range).imp (fun h => by omega)
    · intro k
      rw [o3 k, List.mem_map]
      constructor
      · rintro ⟨_, hk1, x, hx, hlt, _⟩
        obtain ⟨hkN, rfl⟩ := hget _ _ hx
        refine ⟨k - 1, List.mem_filter.2 ⟨List.mem_range.2 hkN, ?_⟩, by omega⟩
        by_contra h
        rw [if_neg h, ← e] at hlt
        exact F32.lt_irrefl _ hlt
      · rintro ⟨j, hj, rfl⟩
        rw [List.mem_filter, List.mem_range] at hj
        have hpos : 0 < (List.range N).countP A := by
          rw [List.countP_pos_iff]
          exact ⟨j, List.mem_range.2 hj.1, hj.2⟩
        refine ⟨by omega, by omega, v, ?_, by rw [← e]; exact hv, ?_, ?_⟩
        · rw [Nat.add_sub_cancel, hget2 j hj.1, if_pos hj.2]
        · intro y hj2 hy
          obtain ⟨_, rfl⟩ := hget _ _ hy
          have : A (j + 1 - 2) = false := by
            by_contra h
            have := hA _ (by simpa using h)
            rw [show j - 1 + 1 = j by omega, hj.2] at this
            cases this
          rw [this]
          exact hv
        · intro y hy
          obtain ⟨_, rfl⟩ := hget _ _ hy
          rw [hA j hj.2]
          exact F32.le_of_lt hv

theorem sub_zero_pos {v : F32} (hv : 0 ≤ v) : v - 0 = v := by
  rcases nonneg_cases hv with rfl | ⟨a, ha, rfl, _⟩
  · decide +kernel
  · rw [zero_def, sub_fin, _root_.sub_zero, rnd_val]

theorem onset_at_map {g : Bool → F32} {s : List Bool} {i : ℕ} (h : i < s.length) :
    Onset.at' (s.map g) i = g (s.getD i false) := by
  unfold Onset.at'
  rw [List.getD_eq_getElem?_getD, List.getElem?_map, List.getD_eq_getElem?_getD, List.getElem?_eq_getElem h]; rfl

/-- the transition into frame `i + 1` is an attack -/
def starts (s : List Bool) (i : ℕ) : Bool := s.getD (i + 1) false && !s.getD i false

theorem starts_alone (s : List Bool) (i : ℕ) (h : starts s i = true) : starts s (i + 1) = false := by
  unfold starts at *
  simp only [Bool.and_eq_true] at h
  rw [h.1]; simp

theorem attacks_eq (s : List Bool) : ((List.range (s.length - 1)).filter (starts s)).map (· + 1) = attacks s := by
  apply List.Pairwise.eq_of_mem_iff (r := (· < ·))
  · rw [List.pairwise_map]
    exact (List.Pairwise.filter _ List.pairwise_lt_range).imp (fun h => by omega)
  · exact List.Pairwise.filter _ List.pairwise_lt_range
  · intro k
    unfold attacks
    rw [List.mem_map, List.mem_filter, List.mem_range]
    constructor
    · rintro ⟨j, hj, rfl⟩
      rw [List.mem_filter, List.mem_range] at hj
      unfold starts at hj
      refine ⟨by omega, ?_⟩
      simpa using hj.2
    · rintro ⟨h1, h2⟩
      simp only [Bool.and_eq_true, decide_eq_true_iff] at h2
      refine ⟨k - 1, List.mem_filter.2 ⟨List.mem_range.2 (by omega), ?_⟩, by omega⟩
      unfold starts
      rw [show k - 1 + 1 = k by omega, h2.1.2, h2.2]; rfl

theorem attacks_count (s : List Bool) : (List.range (s.length - 1)).countP (starts s) = (attacks s).length := by
  rw [← attacks_eq, List.length_map, List.countP_eq_length_filter]

theorem diffFlux_onOff {s : List Bool} {E : F32} (hE : 0 < E) :
    diffFlux (s.map (fun b => if b then E else 0)) = (List.range (s.length - 1)).map (fun i => if starts s i then E else 0) := by
  unfold diffFlux
  rw [List.length_map]
  apply List.map_congr_left
  intro i hi
  rw [List.mem_range] at hi
  rw [onset_at_map (by omega), onset_at_map (by omega)]
  have hE0 := F32.le_of_lt hE
  unfold starts
  cases s.getD (i + 1) false <;> cases s.getD i false
  · simp only [Bool.false_eq_true, if_false, Bool.false_and]; decide +kernel
  · simp only [Bool.false_eq_true, if_true, if_false, Bool.false_and]
    exact rectified_zero hE0
  · simp only [Bool.false_eq_true, if_true, if_false, Bool.not_false, Bool.and_self]
    rw [sub_zero_pos hE0]
    exact F32.le_antisymm (F32.max_le (F32.le_refl (ne_nan_right hE0)) hE0) (F32.le_max_left (ne_nan_right hE0))
  · simp only [Bool.false_eq_true, if_true, if_false, Bool.not_true, Bool.and_false]
    exact rectified_zero (F32.le_refl (ne_nan_right hE0))

theorem pick_onOff {s : List Bool} {E p : F32} (hE : 0 < E) (h2 : 2 ≤ s.length) :
    pickFrames ((List.range (s.length - 1)).map (fun i => if starts s i then E else 0)) p =
      .ok (if rankOf (s.length - 1) p + (attacks s).length < s.length - 1 then attacks s else []) := by
  obtain ⟨out, thr, e, hp, ho⟩ := pickFrames_spec (p := p) (n := s.length)
    (f := (List.range (s.length - 1)).map (fun i => if starts s i then E else 0))
    (by rw [Ne, List.map_eq_nil_iff, List.range_eq_nil]; omega) (by simp)
    (fun x hx => by
      obtain ⟨i, _, rfl⟩ := List.mem_map.1 hx
      split_ifs
      · exact ne_nan_right (F32.le_of_lt hE)
      · exact zero_ne_nan)
  rw [show s.length = s.length - 1 + 1 by omega] at ho
  rw [e, two_level hE (starts_alone s) hp ho, attacks_count, attacks_eq]

theorem ordinary_mem {l : List F32} (h : PlainSound l) {x : F32} (hx : x ∈ l) :
    ∃ v hv, x = fin v hv ∧ 0 ≤ v ∧ v ≤ 2 ^ 30 := by
  obtain ⟨h0, h1⟩ := h.2.1 x hx
  have e : rnd (pow2 30) = fin (2 ^ 30) (by decide +kernel) := by decide +kernel
  rw [e] at h1
  obtain ⟨v, hv, rfl⟩ := isFinite_iff.1 (isFinite_of_between (by decide +kernel) rfl h0 h1)
  rw [zero_def, fin_le_fin] at h0
  rw [fin_le_fin] at h1
  exact ⟨v, hv, rfl, h0, h1⟩

/-- the audible bin of an ordinary sound -/
theorem ordinary_bin {l : List F32} (h : PlainSound l) :
    ∃ k v hv, 1 ≤ k ∧ k < 2 ^ 20 ∧ l[k]? = some (fin v hv) ∧ 1 / 2 ^ 30 ≤ v ∧ v ≤ 2 ^ 30 := by
  obtain ⟨k, hk1, hkl, hk⟩ := h.2.2
  have hg : l[k]? = some (l.getD k 0) := by
    rw [List.getD_eq_getElem?_getD, List.getElem?_eq_getElem hkl]; rfl
  obtain ⟨v, hv, e, h0, h1⟩ := ordinary_mem h (List.mem_of_getElem? hg)
  rw [e] at hg hk
  have e2 : rnd (pow2 (-30)) = fin (1 / 2 ^ 30) (by decide +kernel) := by decide +kernel
  rw [e2, fin_le_fin] at hk
  exact ⟨k, v, hv, hk1, by have := h.1; omega, hg, hk, h1⟩

theorem energy_pos {l : List F32} (h : PlainSound l) : 0 < F32.sum (l.map (fun x => x * x)) := by
  obtain ⟨k, v, hv, _, _, hg, h1, h2⟩ := ordinary_bin h
  have hx : fin v hv * fin v hv ∈ l.map (fun x => x * x) := List.mem_map_of_mem (List.mem_of_getElem? hg)
  refine F32.lt_of_lt_of_le ?_ (le_sum (fun y hy => ?_) hx)
  · rw [mul_fin]
    refine F32.lt_of_lt_of_le ?_ (rnd_mono (show (1 / 2 ^ 60 : ℚ) ≤ v * v by nlinarith))
    decide +kernel
  · obtain ⟨x, hxm, rfl⟩ := List.mem_map.1 hy
    obtain ⟨w, hw, rfl, w0, _⟩ := ordinary_mem h hxm
    rw [mul_fin, zero_def]
    exact fin_le_rnd (_root_.mul_nonneg w0 w0)

theorem hfc_sum (l : List F32) : hfcOf l = F32.sum (l.zipIdx.map (fun p => F32.ofNat p.2 * p.1 * p.1)) := by
  unfold hfcOf F32.sum
  rw [List.foldl_map]

theorem hfc_term {k : ℕ} {v : ℚ} {hv} (hk : k ≤ 2 ^ 20) (h0 : 0 ≤ v) (h1 : v ≤ 2 ^ 30) :
    0 ≤ F32.ofNat k * fin v hv * fin v hv ∧ (1 ≤ k → 1 / 2 ^ 30 ≤ v → 0 < F32.ofNat k * fin v hv * fin v hv) := by
  have hk' : (k : ℚ) ≤ 2 ^ 20 := by exact_mod_cast hk
  have hk0 : (0 : ℚ) ≤ k := Nat.cast_nonneg k
  rw [ofNat_exact (by omega), mul_fin]
  obtain ⟨hq, e, l, u⟩ := rnd_between (x := (k : ℚ) * v) (a := 0) (b := 2 ^ 50) grid_zero (by decide +kernel)
    (_root_.mul_nonneg hk0 h0) (by
      calc (k : ℚ) * v ≤ 2 ^ 20 * 2 ^ 30 := _root_.mul_le_mul hk' h1 h0 (by norm_num)
        _ = 2 ^ 50 := by norm_num)
  rw [e, mul_fin]
  refine ⟨by rw [zero_def]; exact fin_le_rnd (_root_.mul_nonneg l h0), fun h1k h30 => ?_⟩
  have h1' : (1 : ℚ) ≤ k := by exact_mod_cast h1k
  have hg : (1 / 2 ^ 30 : ℚ) ≤ rndQ (k * v) := le_rndQ_of_onGrid (by decide +kernel) (by nlinarith)
  refine F32.lt_of_lt_of_le ?_ (rnd_mono (show (1 / 2 ^ 60 : ℚ) ≤ rndQ (k * v) * v by nlinarith))
  decide +kernel

theorem hfc_pos {l : List F32} (h : PlainSound l) : 0 < hfcOf l := by
  rw [hfc_sum]
  obtain ⟨k, v, hv, hk, hk2, hg, h1, h2⟩ := ordinary_bin h
  have hmem : (fin v hv, k) ∈ l.zipIdx := List.mk_mem_zipIdx_iff_getElem?.2 hg
  have hx := List.mem_map_of_mem (f := fun p : F32 × ℕ => F32.ofNat p.2 * p.1 * p.1) hmem
  refine F32.lt_of_lt_of_le ((hfc_term (by omega) (by linarith [show (0 : ℚ) < 1 / 2 ^ 30 by norm_num]) h2).2 hk h1)
    (le_sum (fun y hy => ?_) hx)
  obtain ⟨⟨x, j⟩, hxm, rfl⟩ := List.mem_map.1 hy
  have hj := List.mk_mem_zipIdx_iff_getElem?.1 hxm
  obtain ⟨w, hw, rfl, w0, w1⟩ := ordinary_mem h (List.mem_of_getElem? hj)
  have := (List.getElem?_eq_some_iff.1 hj).1
  exact (hfc_term (by have := h.1; omega) w0 w1).1

theorem zero_energy (n : ℕ) : F32.sum ((List.replicate n (0 : F32)).map (fun x => x * x)) = 0 := by
  apply sum_zeros
  intro x hx
  obtain ⟨y, hy, rfl⟩ := List.mem_map.1 hx
  rw [List.eq_of_mem_replicate hy]
  decide +kernel

theorem zero_hfc {n : ℕ} (hn : n ≤ 2 ^ 20) : hfcOf (List.replicate n 0) = 0 := by
  rw [hfc_sum]
  apply sum_zeros
  intro x hx
  obtain ⟨⟨y, j⟩, hy, rfl⟩ := List.mem_map.1 hx
  have hj := List.mk_mem_zipIdx_iff_getElem?.1 hy
  have hl := (List.getElem?_eq_some_iff.1 hj).1
  rw [List.length_replicate] at hl
  have : y = 0 := List.eq_of_mem_replicate (List.mem_of_getElem? hj)
  subst this
  dsimp only
  rw [ofNat_exact (by omega), zero_def, mul_fin, mul_zero, rnd_zero, zero_def, mul_fin, mul_zero, rnd_zero, zero_def]

/-- rises of one normalised sound -/
theorem rise_same (a : List F32) (h : ∀ x ∈ a, x ≠ nan) : RiseNorm a a = 0 := by
  unfold RiseNorm
  rw [sum_zeros, F32.sqrt_zero]
  intro x hx
  obtain ⟨⟨y, z⟩, hy, rfl⟩ := List.mem_map.1 hx
  obtain ⟨i, hi, e⟩ := List.mem_iff_getElem.1 hy
  rw [List.getElem_zip] at e
  have e1 := congrArg Prod.fst e
  have e2 := congrArg Prod.snd e
  dsimp only at e1 e2
  rw [← e1, ← e2, rectified_zero (F32.le_refl (h _ (List.getElem_mem _)))]
  decide +kernel

theorem rise_down {a : List F32} (n : ℕ) (h : ∀ x ∈ a, 0 ≤ x) : RiseNorm a (List.replicate n 0) = 0 := by
  unfold RiseNorm
  rw [sum_zeros, F32.sqrt_zero]
  intro x hx
  obtain ⟨⟨y, z⟩, hy, rfl⟩ := List.mem_map.1 hx
  have hz := List.eq_of_mem_replicate (List.of_mem_zip hy).2
  subst hz
  dsimp only
  rw [rectified_zero (h _ (List.of_mem_zip hy).1)]
  decide +kernel

theorem rise_up {a : List F32} (h : ∀ x ∈ a, 0 ≤ x ∧ x ≤ 1) (h1 : 1 ∈ a) : 0 < RiseNorm (List.replicate a.length 0) a := by
  have pos : ∀ x : F32, 0 ≤ x → F32.max (x - 0) 0 = x := fun x h0 => by
    rw [sub_zero_pos h0]
    exact F32.le_antisymm (F32.max_le (F32.le_refl (ne_nan_right h0)) h0) (F32.le_max_left (ne_nan_right h0))
  have key : (1 : F32) ≤ F32.sum (((List.replicate a.length 0).zip a).map
      (fun p => F32.max (p.2 - p.1) 0 * F32.max (p.2 - p.1) 0)) := by
    apply le_sum
    · intro y hy
      obtain ⟨⟨z, x⟩, hx, rfl⟩ := List.mem_map.1 hy
      have hz := List.eq_of_mem_replicate (List.of_mem_zip hx).1
      subst hz
      have hx' := h _ (List.of_mem_zip hx).2
      dsimp only
      rw [pos x hx'.1]
      obtain ⟨w, hw, rfl⟩ := isFinite_iff.1 (isFinite_of_unit hx'.1 hx'.2)
      rw [mul_fin, zero_def]
      exact fin_le_rnd (mul_self_nonneg w)
    · obtain ⟨i, hi, e⟩ := List.mem_iff_getElem.1 h1
      refine List.mem_map.2 ⟨(0, 1), ?_, by decide +kernel⟩
      rw [List.mem_iff_getElem]
      refine ⟨i, by simpa using hi, ?_⟩
      rw [List.getElem_zip, List.getElem_replicate, e]
  refine F32.lt_of_lt_of_le ?_ (F32.sqrt_mono (by decide +kernel) key)
  decide +kernel

theorem norm_ordinary {l : List F32} (h : PlainSound l) :
    (∀ x ∈ Onset.normFrame l, 0 ≤ x ∧ x ≤ 1) ∧ 1 ∈ Onset.normFrame l ∧ (Onset.normFrame l).length = l.length := by
  obtain ⟨m0, mn, mle, mmem⟩ := foldMax_spec (l := l) (a := 0) zero_ne_nan
  obtain ⟨k, v, hv, _, _, hg, h1, h2⟩ := ordinary_bin h
  have hkm := List.mem_of_getElem? hg
  have hEv : Onset.EPS < fin v hv := by
    have eE : Onset.EPS = fin (rndQ (1 / 10 ^ 10)) (by decide +kernel) := by decide +kernel
    rw [eE, fin_lt_fin]
    exact _root_.lt_of_lt_of_le (by decide +kernel) h1
  have hE : Onset.EPS < foldMax 0 l := F32.lt_of_lt_of_le hEv (mle _ hkm (by simp))
  have hmp : (0 : F32) < foldMax 0 l := F32.lt_trans (by decide +kernel) hE
  have hm : foldMax 0 l ∈ l := by
    rcases mmem with e | e
    · rw [e] at hmp; exact absurd hmp (F32.lt_irrefl _)
    · exact e
  obtain ⟨m, hm', em, m0', m1⟩ := ordinary_mem h hm
  have hm0 : m ≠ 0 := by
    rintro rfl
    rw [em, zero_def, fin_lt_fin] at hmp
    exact absurd hmp (_root_.lt_irrefl _)
  have hmpos : 0 < m := _root_.lt_of_le_of_ne m0' (Ne.symm hm0)
  unfold Onset.normFrame
  dsimp only
  rw [if_pos hE, em]
  refine ⟨fun x hx => ?_, ?_, by rw [List.length_map]⟩
  · obtain ⟨y, hy, rfl⟩ := List.mem_map.1 hx
    obtain ⟨w, hw, rfl, w0, _⟩ := ordinary_mem h hy
    have hle := mle _ hy (by simp)
    rw [em, fin_le_fin] at hle
    rw [div_fin hm0]
    refine ⟨by rw [zero_def]; exact fin_le_rnd (_root_.div_nonneg w0 m0'), ?_⟩
    rw [one_def]
    exact rnd_le_fin ((div_le_one₀ hmpos).2 hle)
  · refine List.mem_map.2 ⟨fin m hm', em ▸ hm, ?_⟩
    rw [div_fin hm0, div_self hm0]
    decide +kernel

theorem norm_silent (n : ℕ) : Onset.normFrame (List.replicate n 0) = List.replicate n 0 := by
  unfold Onset.normFrame
  dsimp only
  split_ifs with h
  · have : foldMax 0 (List.replicate n 0) = 0 := by
      rcases (foldMax_spec (l := List.replicate n 0) (a := 0) zero_ne_nan).2.2.2 with e | e
      · exact e
      · exact List.eq_of_mem_replicate e
    rw [this] at h
    exact absurd h (by decide +kernel)
  · rw [List.map_replicate]

theorem rect_onOff {l : List F32} (h : PlainSound l) (s : List Bool) : Rect (onOff l s) := by
  obtain ⟨k, _, hk, _⟩ := h.2.2
  refine ⟨l.length, by omega, fun fr hfr => ?_⟩
  obtain ⟨b, _, rfl⟩ := List.mem_map.1 hfr
  split_ifs
  · rfl
  · rw [List.length_replicate]

/-- **C113**: a sound that is switched on and off: each of the three frame-based detectors reports either every attack, at
exactly its frame, or — when the attacks are so many that the percentile falls among them — nothing at all. -/
theorem C113_attacks (l : List F32) (s : List Bool) (sr : ℕ) (p : F32) (hl : PlainSound l) (h2 : 2 ≤ s.length) (hs : 0 < sr)
    (hp : 0 ≤ p ∧ p ≤ 1) :
    ∀ r ∈ [spectralFluxOnsets (onOff l s) p, hfcOnsets (onOff l s) sr p, hpssOnsets (onOff l s) p],
      r = .ok (if rankOf (s.length - 1) p + (attacks s).length < s.length - 1 then attacks s else []) := by
  have hlen : (onOff l s).length = s.length := by unfold onOff; rw [List.length_map]
  have hne : onOff l s ≠ [] := by rw [← List.length_pos_iff]; omega
  have hfr := (framesOk_none (p := p) hne).2 ⟨hp, rect_onOff hl s⟩
  have hne' : ∀ v : F32, (List.range (s.length - 1)).map (fun i => if starts s i then v else 0) ≠ [] := fun v => by
    rw [Ne, List.map_eq_nil_iff, List.range_eq_nil]; omega
  intro r hr
  simp only [List.mem_cons, List.not_mem_nil, or_false] at hr
  rcases hr with rfl | rfl | rfl
  · unfold spectralFluxOnsets
    rw [if_neg hne, hfr]
    dsimp only
    rw [if_neg (by omega)]
    obtain ⟨u, one, ln⟩ := norm_ordinary hl
    have e : Onset.spectralFlux (onOff l s) = (List.range (s.length - 1)).map (fun i => if starts s i then
        RiseNorm (List.replicate l.length 0) (Onset.normFrame l) else 0) := by
      unfold Onset.spectralFlux
      dsimp only
      rw [List.length_map, hlen]
      apply List.map_congr_left
      intro i hi
      rw [List.mem_range] at hi
      have get : ∀ j, j < s.length → ((onOff l s).map Onset.normFrame).getD j [] =
          if s.getD j false then Onset.normFrame l else List.replicate l.length 0 := fun j hj => by
        unfold onOff
        rw [List.map_map, List.getD_eq_getElem?_getD, List.getElem?_map, List.getD_eq_getElem?_getD,
          List.getElem?_eq_getElem hj]
        simp only [Function.comp, Option.map_some, Option.getD_some]
        split_ifs
        · rfl
        · exact norm_silent _
      rw [get i (by omega), get (i + 1) (by omega)]
      change RiseNorm _ _ = _
      unfold starts
      cases s.getD (i + 1) false <;> cases s.getD i false
      · simp only [Bool.false_eq_true, if_false, Bool.false_and]
        exact rise_same _ (fun x hx => by rw [List.eq_of_mem_replicate hx]; exact zero_ne_nan)
      · simp only [Bool.false_eq_true, if_true, if_false, Bool.false_and]
        exact rise_down _ (fun x hx => (u x hx).1)
      · simp only [Bool.false_eq_true, if_true, if_false, Bool.not_false, Bool.and_self]
      · simp only [Bool.false_eq_true, if_true, if_false, Bool.not_true, Bool.and_false]
        exact rise_same _ (fun x hx => ne_nan_right (u x hx).1)
    rw [e, if_neg (hne' _)]
    have := rise_up u one
    rw [ln] at this
    exact pick_onOff this h2
  · unfold hfcOnsets
    rw [if_neg hne, if_neg (by omega), hfr]
    dsimp only
    rw [if_neg (by omega)]
    have e : (onOff l s).map hfcOf = s.map (fun b => if b then hfcOf l else 0) := by
      unfold onOff
      rw [List.map_map]
      apply List.map_congr_left
      intro b _
      simp only [Function.comp]
      split_ifs
      · rfl
      · exact zero_hfc hl.1
    rw [e, diffFlux_onOff (hfc_pos hl), if_neg (hne' _)]
    exact pick_onOff (hfc_pos hl) h2
  · unfold hpssOnsets
    rw [if_neg hne, if_neg (by rw [inUnit_iff]; exact not_not.2 hp), if_neg (by omega)]
    dsimp only
    have e : (onOff l s).map (fun fr => F32.sum (fr.map (fun x => x * x))) =
        s.map (fun b => if b then F32.sum (l.map (fun x => x * x)) else 0) := by
      unfold onOff
      rw [List.map_map]
      apply List.map_congr_left
      intro b _
      simp only [Function.comp]
      split_ifs
      · rfl
      · exact zero_energy _
    rw [e, diffFlux_onOff (energy_pos hl), if_neg (hne' _)]
    exact pick_onOff (energy_pos hl) h2

theorem f08 : (0.8 : F32) = fin (13421773 / 16777216) (by decide +kernel) := by decide +kernel

theorem rank_le {N M : ℕ} (hN : N ≤ 2 ^ 20) (h : 4 * N + 1 ≤ 5 * M) (hM : M ≤ 2 ^ 20) : rankOf N 0.8 ≤ M := by
  unfold rankOf
  refine _root_.le_trans (Nat.min_le_left _ _) (toUsize_le (h' := grid_nat (by omega)) ?_)
  rw [f08, ofNat_exact (by omega), mul_fin]
  refine rnd_le_fin ?_
  have h1 : (N : ℚ) ≤ 1048576 := by exact_mod_cast hN
  have h2 : 4 * (N : ℚ) + 1 ≤ 5 * M := by exact_mod_cast h
  linarith

theorem rank_ge {N M : ℕ} (hN : N ≤ 2 ^ 20) (h : 5 * M ≤ 4 * N) (hM : M ≤ N - 1) : M ≤ rankOf N 0.8 := by
  unfold rankOf
  refine Nat.le_min.2 ⟨toUsize_ge (hn := grid_nat (by omega)) ?_ (by unfold usizeMax; omega), hM⟩
  rw [f08, ofNat_exact (by omega), mul_fin]
  refine fin_le_rnd ?_
  have h2 : 5 * (M : ℚ) ≤ 4 * N := by exact_mod_cast h
  have h0 : (0 : ℚ) ≤ N := Nat.cast_nonneg N
  linarith

/-- **C113_partial**: with the default percentile 0.8 every attack is found if fewer than one in five transitions (less
one) is an attack.  Missing: denser series, of which none is found (`C113_none`). -/
theorem C113_partial (l : List F32) (s : List Bool) (sr : ℕ) (hl : PlainSound l) (h2 : 2 ≤ s.length) (hs : 0 < sr)
    (hN : s.length ≤ 2 ^ 20) (hA : 5 * ((attacks s).length + 1) < s.length - 1) :
    ∀ r ∈ [spectralFluxOnsets (onOff l s) 0.8, hfcOnsets (onOff l s) sr 0.8, hpssOnsets (onOff l s) 0.8],
      r = .ok (attacks s) := by
  intro r hr
  rw [C113_attacks l s sr 0.8 hl h2 hs (by decide +kernel) r hr]
  have := rank_le (N := s.length - 1) (M := s.length - 1 - (attacks s).length - 1) (by omega) (by omega) (by omega)
  rw [if_pos (by omega)]

/-- **C113_none**: with the default percentile 0.8, none of the attacks is found if one in five transitions (and one more)
is an attack. -/
theorem C113_none (l : List F32) (s : List Bool) (sr : ℕ) (hl : PlainSound l) (h2 : 2 ≤ s.length) (hs : 0 < sr)
    (hN : s.length ≤ 2 ^ 20) (hA : s.length + 4 ≤ 5 * (attacks s).length) :
    ∀ r ∈ [spectralFluxOnsets (onOff l s) 0.8, hfcOnsets (onOff l s) sr 0.8, hpssOnsets (onOff l s) 0.8], r = .ok [] := by
  intro r hr
  rw [C113_attacks l s sr 0.8 hl h2 hs (by decide +kernel) r hr]
  have := rank_ge (N := s.length - 1) (M := s.length - 1 - (attacks s).length) (by omega) (by omega) (by omega)
  rw [if_neg (by omega)]

/-- non-vacuity: two attacks in 16 frames are found, one sound in every second frame is not -/
example : PlainSound [0, 1, 0.5] ∧
    attacks [false, false, true, true, false, false, false, false, true, false, false, false, false, false, false, false,
      false, false] = [2, 8] ∧
    attacks [false, true, false, true, false, true, false, true] = [1, 3, 5, 7] := by
  refine ⟨⟨by decide, by decide +kernel, 1, by decide, by decide, by decide +kernel⟩, by decide +kernel, by decide +kernel⟩

/-- **C113 is violated**: eight clear attacks (out of silence, well apart from noise of any kind), none of them reported
by any of the three detectors at the default percentile. -/
theorem C113_violated : ∃ (l : List F32) (s : List Bool), PlainSound l ∧ (attacks s).length = 8 ∧
    spectralFluxOnsets (onOff l s) 0.8 = .ok [] ∧ hfcOnsets (onOff l s) 44100 0.8 = .ok [] ∧
    hpssOnsets (onOff l s) 0.8 = .ok [] := by
  have ho : PlainSound [0, 1, 0.5] := ⟨by decide, by decide +kernel, 1, by decide, by decide, by decide +kernel⟩
  set s := [false, true, false, true, false, true, false, true, false, true, false, true, false, true, false, true] with hs
  have hA : (attacks s).length = 8 := by rw [hs]; decide +kernel
  have h := C113_none [0, 1, 0.5] s 44100 ho (by rw [hs]; decide) (by norm_num) (by rw [hs]; decide) (by rw [hA, hs]; decide)
  exact ⟨_, s, ho, hA, h _ (by simp), h _ (by simp), h _ (by simp)⟩

/-- **C113** (the accepted percentile 1): nothing is ever found, in any spectrogram. -/
theorem C113_top (mags : List (List F32)) (sr : ℕ) (hN : mags.length ≤ 2 ^ 24) :
    ∀ r ∈ [spectralFluxOnsets mags 1, hfcOnsets mags sr 1, hpssOnsets mags 1], ∀ out, r = .ok out → out = [] := by
  have key : ∀ (f : List F32) (n : ℕ) (thr : F32) (out : List ℕ), f.length ≤ 2 ^ 24 → IsPercentile f 1 thr →
      PicksPeaks n f thr out → out = [] := by
    intro f n thr out hn hp ho
    rw [List.eq_nil_iff_forall_not_mem]
    intro k hk
    obtain ⟨hl2, _, x, hx, hlt, _⟩ := (ho.2.2 k).1 hk
    have hr : (F32.ofNat f.length * 1).toUsize = f.length := by
      rw [show F32.ofNat f.length * 1 = F32.ofNat f.length by
        rw [ofNat_exact hn, one_def, mul_fin, mul_one, rnd_val], toUsize_ofNat hn]
    have hc := hp.2.1
    rw [hr, show Nat.min f.length (f.length - 1) = f.length - 1 from Nat.min_eq_right (by omega),
      show f.length - 1 + 1 = f.length by omega] at hc
    have hall := List.countP_eq_length.1 (_root_.le_antisymm List.countP_le_length hc) x (List.mem_of_getElem? hx)
    rw [decide_eq_true_iff] at hall
    exact F32.lt_irrefl _ (F32.lt_of_lt_of_le hlt hall)
  intro r hr out ho
  by_cases h0 : mags = []
  · subst h0
    obtain ⟨e1, e2, e3⟩ := C09_empty sr 1
    rw [e1, e2, e3] at hr
    simp only [List.mem_cons, List.not_mem_nil, or_false, or_self] at hr
    rw [hr] at ho
    exact (Except.ok.inj ho).symm
  have h1 : (0 : F32) ≤ 1 ∧ (1 : F32) ≤ 1 := by decide +kernel
  simp only [List.mem_cons, List.not_mem_nil, or_false] at hr
  rcases hr with rfl | rfl | rfl
  · obtain ⟨a, b⟩ := C09_spectral_flux mags 1 h0
    by_cases hR : Rect mags
    · obtain ⟨o, e, h⟩ := b ⟨h1, hR⟩
      rw [e] at ho
      rw [← Except.ok.inj ho]
      rcases h with ⟨_, h⟩ | ⟨_, f, thr, _, hf, hp, hk⟩
      · exact h
      · exact key f _ thr o (by omega) hp hk
    · rw [a (fun h => hR h.2)] at ho; cases ho
  · obtain ⟨a, b⟩ := C09_hfc mags sr 1 h0
    by_cases hR : 0 < sr ∧ Rect mags
    · obtain ⟨o, e, h⟩ := b ⟨hR.1, h1, hR.2⟩
      rw [e] at ho
      rw [← Except.ok.inj ho]
      rcases h with ⟨_, h⟩ | ⟨f, thr, hf, hp, hk⟩
      · exact h
      · exact key f _ thr o (by have := hf.1; omega) hp hk
    · rw [a (fun h => hR ⟨h.1, h.2.2⟩)] at ho; cases ho
  · obtain ⟨_, b⟩ := C09_hpss mags 1 h0
    obtain ⟨o, e, h⟩ := b h1
    rw [e] at ho
    rw [← Except.ok.inj ho]
    rcases h with ⟨_, h⟩ | ⟨f, thr, hf, hp, hk⟩
    · exact h
    · exact key f _ thr o (by have := hf.1; omega) hp hk

/-- non-vacuity: one clear attack, found just below percentile 1 but not at 1 -/
example : hpssOnsets [[0], [0], [4], [4], [4]] 0.7 = .ok [2] ∧ hpssOnsets [[0], [0], [4], [4], [4]] 1 = .ok [] := by
  decide +kernel

end Verif.Props
