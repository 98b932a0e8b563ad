/-
What raises a novelty curve (C73), and band-limited novelty (C74).
-/
import Verif.Props.NoveltyMore

namespace Verif.Props
open Verif F32 Novelty

/-- the natural logarithm is monotone from 1 on -/
def LnMono (M : Libm) : Prop := ∀ x y, 1 ≤ x → x ≤ y → M.ln x ≤ M.ln y

theorem rectified_zero {a b : F32} (h : a ≤ b) : F32.max (a - b) 0 = 0 := by
  rcases a with _ | (_ | _) | ⟨a, ha⟩ <;> rcases b with _ | (_ | _) | ⟨b, hb⟩ <;> simp at h <;>
    try (rw [zero_def]; rfl)
  rw [sub_fin]
  have h1 : rnd (a - b) ≤ 0 := rnd_nonpos (by linarith)
  exact F32.le_antisymm (F32.max_le h1 (by decide +kernel)) (le_max_right zero_ne_nan)

theorem sum_zeros {l : List F32} (h : ∀ x ∈ l, x = 0) : F32.sum l = 0 := by
  have : l = List.replicate l.length 0 := List.eq_replicate_of_mem h
  rw [this, show (0 : F32) = fin 0 grid_zero from zero_def,
    sum_replicate_exact (fun k _ => by rw [mul_zero]; exact grid_zero), mul_zero]
  exact rnd_val grid_zero

theorem peakNorm_zero {c : List F32} {i : ℕ} (h : c.getD i 0 = 0) : (peakNorm c).getD i 0 = 0 := by
  unfold peakNorm
  dsimp only
  split_ifs with hm
  · rw [List.getD_eq_getElem?_getD, List.getElem?_map]
    rw [List.getD_eq_getElem?_getD] at h
    rcases e : c[i]? with _ | x
    · rfl
    · rw [e] at h
      simp only [Option.getD_some] at h
      subst h
      simp only [Option.map_some, Option.getD_some]
      have hp := F32.lt_trans eps_pos hm
      rcases nonneg_cases (F32.le_of_lt hp) with e | ⟨v, hv, e, v0⟩
      · rw [e, zero_def, fin_div_inf]; exact zero_def
      · rw [e] at hp ⊢
        rw [zero_def, fin_lt_fin] at hp
        rw [zero_def, div_fin hp.ne', zero_div]; exact rnd_val grid_zero
  · exact h

theorem range_map_get {β : Type} {n i : ℕ} (f : ℕ → β) (d : β) (h : i < n) : ((List.range n).map f).getD i d = f i := by
  rw [List.getD_eq_getElem?_getD, List.getElem?_map, List.getElem?_range h]; rfl

theorem map_getD_list {f : List F32 → List F32} (hf : f [] = []) (l : List (List F32)) (i : ℕ) :
    (l.map f).getD i [] = f (l.getD i []) := by
  rw [List.getD_eq_getElem?_getD, List.getElem?_map, List.getD_eq_getElem?_getD]
  rcases l[i]? with _ | x
  · exact hf.symm
  · rfl

/-- the logarithm of magnitudes keeps their order -/
theorem logMag_mono {M : Libm} (hM : LnMono M) {x y : F32} (h : x ≤ y) : logMag M x ≤ logMag M y := by
  have one_le : ∀ z : F32, 0 ≤ z → 1 ≤ 1 + z := by
    intro z hz
    rcases nonneg_cases hz with e | ⟨v, hv, e, v0⟩
    · rw [e]; decide +kernel
    · rw [e, one_def, add_fin]; exact fin_le_rnd (by linarith)
  have hx0 : 0 ≤ F32.max x 0 := le_max_right zero_ne_nan
  have hy0 : 0 ≤ F32.max y 0 := le_max_right zero_ne_nan
  have hm : F32.max x 0 ≤ F32.max y 0 := F32.max_le (F32.le_trans h (le_max_left (ne_nan_right h))) hy0
  apply hM _ _ (one_le _ hx0)
  exact F32.add_le_add (F32.le_refl one_ne_nan) hm (ne_nan_right (one_le _ hx0)) (ne_nan_right (one_le _ hy0))

theorem mem_band {l : List F32} {s e i : ℕ} (h1 : s ≤ i) (h2 : i < e) (h3 : i < l.length) : Novelty.at' l i ∈ band s e l := by
  unfold band Novelty.at'
  rw [List.getD_eq_getElem?_getD, List.getElem?_eq_getElem h3]
  refine List.mem_of_getElem? (i := i - s) ?_
  rw [List.getElem?_drop, List.getElem?_take, if_pos (by omega), show s + (i - s) = i by omega,
    List.getElem?_eq_getElem h3]; rfl

theorem map_at {f : F32 → F32} {l : List F32} {i : ℕ} (h : i < l.length) :
    Novelty.at' (l.map f) i = f (Novelty.at' l i) := by
  unfold Novelty.at'
  rw [List.getD_eq_getElem?_getD, List.getElem?_map, List.getD_eq_getElem?_getD, List.getElem?_eq_getElem h]; rfl

/-- **C73 (superflux)**: where no bin of a frame is louder than every bin of the previous frame within `max k 1` bins of it
(a sustained, decaying or slightly gliding sound), the superflux novelty is exactly 0. -/
theorem C73_superflux (M : Libm) (hM : LnMono M) (spec : List (List F32)) (k : ℕ) (hv : Valid spec) (h2 : 2 ≤ spec.length) :
    ∃ c, superflux M spec k = .ok c ∧ ∀ i, i + 1 < spec.length →
      (∀ b < (spec.headD []).length, ∃ b' < (spec.headD []).length, b ≤ b' + max k 1 ∧ b' ≤ b + max k 1 ∧
        (spec.getD (i + 1) []).getD b 0 ≤ (spec.getD i []).getD b' 0) → c.getD i 0 = 0 := by
  refine ⟨_, by unfold superflux; rw [if_neg (by omega), check_valid hv]; rfl, fun i hi hb => ?_⟩
  apply peakNorm_zero
  unfold pairs
  rw [range_map_get _ _ (by simp; omega), map_getD_list rfl, map_getD_list rfl]
  unfold superStep
  rw [sum_zeros, F32.sqrt_zero]
  intro x hx
  obtain ⟨b, hbm, rfl⟩ := List.mem_map.1 hx
  have hbn : b < (spec.headD []).length := by
    rw [List.mem_range'] at hbm; obtain ⟨j, hj, rfl⟩ := hbm; omega
  obtain ⟨b', hb', c1, c2, c3⟩ := hb b hbn
  have getmem : ∀ j, j < spec.length → (spec.getD j []).length = (spec.headD []).length := by
    intro j hj
    rw [List.getD_eq_getElem?_getD, List.getElem?_eq_getElem hj]
    exact hv.2 _ (List.getElem_mem hj)
  have l1 := getmem i (by omega)
  have l2 := getmem (i + 1) hi
  rw [map_at (by omega)]
  have hlog := logMag_mono hM c3
  have hmem : logMag M ((spec.getD i []).getD b' 0) ∈ band (Nat.max (b - Nat.max k 1) 0)
      (Nat.min (b + Nat.max k 1 + 1) (spec.headD []).length) ((spec.getD i []).map (logMag M)) := by
    have := mem_band (l := (spec.getD i []).map (logMag M)) (s := Nat.max (b - Nat.max k 1) 0)
      (e := Nat.min (b + Nat.max k 1 + 1) (spec.headD []).length) (i := b')
      (by rw [show Nat.max (b - Nat.max k 1) 0 = b - Nat.max k 1 from Nat.max_eq_left (Nat.zero_le _)]
          have : Nat.max k 1 = max k 1 := rfl
          omega)
      (Nat.lt_min.2 ⟨by have : Nat.max k 1 = max k 1 := rfl
                        omega, hb'⟩) (by rw [List.length_map]; omega)
    rw [map_at (by omega)] at this
    exact this
  have hle := (foldMax_spec (l := band (Nat.max (b - Nat.max k 1) 0)
      (Nat.min (b + Nat.max k 1 + 1) (spec.headD []).length) ((spec.getD i []).map (logMag M))) (a := 0) zero_ne_nan).2.2.1
      _ hmem (ne_nan_right hlog)
  have hz : F32.max (logMag M (Novelty.at' (spec.getD (i + 1) []) b) -
      prevMax (Nat.max k 1) 0 (spec.headD []).length b ((spec.getD i []).map (logMag M))) 0 = 0 :=
    rectified_zero (F32.le_trans hlog hle)
  simp only [hz]
  decide +kernel

/-- non-vacuity: the partial glides from bin 0 to bin 1 and fades; the value stays 0 until the new note in frame 3 -/
example : Valid [[4, 0], [0, 4], [0, 3], [9, 3]] ∧ superflux rampLibm [[4, 0], [0, 4], [0, 3], [9, 3]] 1 = .ok [0, 0, 1] := by
  unfold Valid; decide +kernel

/-- sums of pointwise smaller non-negative terms are smaller -/
theorem sum_le_sum {l l' : List F32} (hl : l.length = l'.length)
    (h : ∀ i < l.length, 0 ≤ l.getD i 0 ∧ l.getD i 0 ≤ l'.getD i 0) : F32.sum l ≤ F32.sum l' := by
  have key : ∀ (l l' : List F32), l.length = l'.length → (∀ i < l.length, 0 ≤ l.getD i 0 ∧ l.getD i 0 ≤ l'.getD i 0) →
      ∀ a b : F32, 0 ≤ a → a ≤ b → l.foldl (· + ·) a ≤ l'.foldl (· + ·) b := by
    intro l
    induction l with
    | nil =>
      intro l' hl h a b ha hab
      rw [List.length_nil] at hl
      rw [List.eq_nil_of_length_eq_zero hl.symm]
      exact hab
    | cons x l ih =>
      intro l' hl h a b ha hab
      rcases l' with _ | ⟨y, l'⟩
      · simp at hl
      · rw [List.foldl_cons, List.foldl_cons]
        obtain ⟨x0, xy⟩ := h 0 (by simp)
        simp only [List.getD_cons_zero] at x0 xy
        have n1 := F32.add_nonneg ha x0
        have n2 := F32.add_nonneg (F32.le_trans ha hab) (F32.le_trans x0 xy)
        refine ih l' (by simpa using hl) (fun i hi => ?_) _ _ n1
          (F32.add_le_add hab xy (ne_nan_right n1) (ne_nan_right n2))
        have := h (i + 1) (by simp; omega)
        simpa using this
  exact key l l' hl h 0 0 (by decide +kernel) (by decide +kernel)

theorem sq_mono {x y : F32} (h0 : 0 ≤ x) (h : x ≤ y) : x * x ≤ y * y := by
  have hy := F32.le_trans h0 h
  rcases nonneg_cases hy with rfl | ⟨w, hw, rfl, w0⟩
  · have := Novelty.sq_nonneg h0
    rw [inf_mul_inf]
    rcases nonneg_cases this with e | ⟨v, hv, e, -⟩ <;> rw [e] <;> simp
  · rw [zero_def] at h0
    obtain ⟨v, hv, rfl, v0, v1⟩ := between_cases h0 h
    rw [mul_fin, mul_fin]
    exact rnd_mono (by nlinarith)

theorem rise_zero {e : List F32} {i : ℕ} (hi : i + 1 < e.length) (h : e.getD (i + 1) 0 ≤ e.getD i 0) :
    (peakNorm (rise e)).getD i 0 = 0 := by
  apply peakNorm_zero
  unfold rise
  rw [range_map_get _ _ (by omega)]
  exact rectified_zero h

theorem map_getD_val {f : List F32 → F32} (l : List (List F32)) {i : ℕ} (hi : i < l.length) :
    (l.map f).getD i 0 = f (l.getD i []) := by
  rw [List.getD_eq_getElem?_getD, List.getElem?_map, List.getD_eq_getElem?_getD, List.getElem?_eq_getElem hi]; rfl

theorem zip_map_get {f : F32 × ℕ → F32} (l : List F32) {i : ℕ} (hi : i < l.length) (s : ℕ) :
    ((l.zipIdx s).map f).getD i 0 = f (l.getD i 0, s + i) := by
  rw [List.getD_eq_getElem?_getD, List.getElem?_map, List.getElem?_zipIdx, List.getElem?_eq_getElem hi,
    List.getD_eq_getElem?_getD, List.getElem?_eq_getElem hi]
  simp [_root_.add_comm]

/-- the weighted square of a finite magnitude -/
theorem weighted_mono {k : ℕ} (hk : k ≤ 2 ^ 127) {x y : F32} (h0 : 0 ≤ x) (h : x ≤ y) (hy : y.isFinite = true) :
    0 ≤ F32.ofNat k * x * x ∧ F32.ofNat k * x * x ≤ F32.ofNat k * y * y := by
  obtain ⟨w, hw, rfl⟩ := isFinite_iff.1 hy
  rw [zero_def] at h0
  obtain ⟨v, hv, rfl, v0, v1⟩ := between_cases h0 h
  obtain ⟨n, hn, en⟩ := isFinite_iff.1 (ofNat_finite hk)
  have n0 : 0 ≤ n := by have := ofNat_nonneg k; rw [en, zero_def, fin_le_fin] at this; exact this
  rw [en, mul_fin, mul_fin]
  have hle : rnd (n * v) ≤ rnd (n * w) := rnd_mono (by nlinarith)
  have h0' : 0 ≤ rnd (n * v) := rnd_nonneg (by positivity)
  have hz : w = 0 ∨ 0 < w := by rcases (_root_.le_trans v0 v1).eq_or_lt with h | h
                                · exact .inl h.symm
                                · exact .inr h
  rcases nonneg_cases (F32.le_trans h0' hle) with e | ⟨b, hb, e, b0⟩
  · -- the larger product overflowed
    rcases hz with rfl | hw0
    · rw [mul_zero, rnd_val grid_zero] at e; cases e
    · have e3 : rnd (n * w) * fin w hw = inf false := by
        rw [e, inf_mul_fin, if_neg hw0.ne']; simp [not_lt.2 hw0.le]
      have hge : 0 ≤ rnd (n * v) * fin v hv := by
        apply F32.mul_nonneg h0' (by rw [zero_def, fin_le_fin]; exact v0)
        rcases nonneg_cases h0' with e' | ⟨a, ha, e', -⟩
        · rw [e', inf_mul_fin]
          have hv0 : v ≠ 0 := by rintro rfl; rw [mul_zero, rnd_val grid_zero] at e'; cases e'
          rw [if_neg hv0]; simp
        · rw [e', mul_fin]; exact rnd_ne_nan _
      refine ⟨hge, ?_⟩
      rw [e3]
      rcases nonneg_cases hge with e' | ⟨a, ha, e', -⟩ <;> rw [e'] <;> simp
  · rw [e] at hle ⊢
    rw [zero_def] at h0'
    obtain ⟨a, ha, e', a0, a1⟩ := between_cases h0' hle
    rw [e', mul_fin, mul_fin]
    exact ⟨rnd_nonneg (by positivity), rnd_mono (_root_.mul_le_mul a1 v1 v0 b0)⟩

/-- **C73 (energy and HFC)**: where no bin gets louder, the energy-flux and the high-frequency-content novelty are exactly
0, for all finite non-negative magnitudes, even if the energies overflow. -/
theorem C73_energy (spec : List (List F32)) (sr : ℕ) (hs : 0 < sr) (hv : Valid spec) (h2 : 2 ≤ spec.length)
    (hn : (spec.headD []).length ≤ 2 ^ 127) (hf : ∀ fr ∈ spec, ∀ x ∈ fr, x.isFinite = true) :
    ∃ c d, energyFlux spec = .ok c ∧ hfc spec sr = .ok d ∧ ∀ i, i + 1 < spec.length →
      (∀ b < (spec.headD []).length, 0 ≤ (spec.getD (i + 1) []).getD b 0 ∧
        (spec.getD (i + 1) []).getD b 0 ≤ (spec.getD i []).getD b 0) → c.getD i 0 = 0 ∧ d.getD i 0 = 0 := by
  have hne : spec ≠ [] := by rintro rfl; simp at h2
  refine ⟨_, _, by unfold energyFlux; rw [if_neg (by omega), check_valid hv]; rfl,
    by unfold hfc; rw [if_neg hne, if_neg (by omega), if_neg (by omega), check_valid hv]; rfl, fun i hi hb => ?_⟩
  have getmem : ∀ j, j < spec.length → (spec.getD j []) ∈ spec := by
    intro j hj
    rw [List.getD_eq_getElem?_getD, List.getElem?_eq_getElem hj]
    exact List.getElem_mem hj
  have l1 := hv.2 _ (getmem i (by omega))
  have l2 := hv.2 _ (getmem (i + 1) hi)
  constructor
  · apply rise_zero (by simp; omega)
    rw [map_getD_val _ (by omega), map_getD_val _ (by omega)]
    apply sum_le_sum (by rw [List.length_map, List.length_map, l1, l2])
    intro b hb'
    have hb'' : b < (spec.headD []).length := by rw [List.length_map, l2] at hb'; exact hb'
    have m1 := map_at (f := fun x => x * x) (l := spec.getD (i + 1) []) (i := b) (by omega)
    have m2 := map_at (f := fun x => x * x) (l := spec.getD i []) (i := b) (by omega)
    unfold Novelty.at' at m1 m2
    rw [m1, m2]
    exact ⟨Novelty.sq_nonneg (hb b hb'').1, sq_mono (hb b hb'').1 (hb b hb'').2⟩
  · apply rise_zero (by simp; omega)
    rw [map_getD_val _ (by omega), map_getD_val _ (by omega)]
    apply sum_le_sum (by rw [List.length_map, List.length_map, List.length_zipIdx, List.length_zipIdx, l1, l2])
    intro b hb'
    have hb'' : b < (spec.headD []).length := by rw [List.length_map, List.length_zipIdx, l2] at hb'; exact hb'
    rw [zip_map_get _ (by omega), zip_map_get _ (by omega)]
    refine weighted_mono (by omega) (hb b hb'').1 (hb b hb'').2 (hf _ (getmem i (by omega)) _ ?_)
    have : b < (spec.getD i []).length := by omega
    have := Novelty.mem_getD this
    exact this

example : Valid [[3, 4], [3, 2], [0, 5]] ∧ energyFlux [[3, 4], [3, 2], [0, 5]] = .ok [0, 1] := by
  unfold Valid; decide +kernel

/-- **C73 (scale)**: whenever the values of a non-negative finite curve are scaled, the largest becomes exactly 1; otherwise
every value is at most `1e-10`. -/
theorem peakNorm_one {c : List F32} (h : ∀ x ∈ c, 0 ≤ x ∧ x.isFinite = true) :
    1 ∈ peakNorm c ∨ ∀ x ∈ peakNorm c, x ≤ 1e-10 := by
  obtain ⟨m0, mn, mle, mmem⟩ := foldMax_spec (l := c) (a := 0) zero_ne_nan
  unfold peakNorm
  dsimp only
  by_cases hm : EPS < foldMax 0 c
  · left
    rw [if_pos hm]
    rcases mmem with e | e
    · rw [e] at hm; exact absurd hm (by decide +kernel)
    · refine List.mem_map.2 ⟨_, e, ?_⟩
      have hp := F32.lt_trans eps_pos hm
      obtain ⟨v, hv, ev⟩ := isFinite_iff.1 (h _ e).2
      rw [ev] at hp ⊢
      rw [zero_def, fin_lt_fin] at hp
      rw [div_fin hp.ne', _root_.div_self hp.ne', one_def]; exact rnd_val grid_one
  · right
    rw [if_neg hm]
    intro x hx
    exact F32.le_trans (mle x hx (ne_nan_right (h x hx).1)) (F32.le_of_not_lt mn (by decide +kernel) hm)

theorem C73_peak (M : Libm) (hM : LnSane M) (spec : List (List F32)) (sr k : ℕ) (hs : 0 < sr) (hv : Valid spec)
    (h2 : 2 ≤ spec.length) (hp : ∀ fr ∈ spec, ∀ x ∈ fr, Plain x) (hb : ∀ fr ∈ spec, fr.length ≤ 2 ^ 32) :
    ∀ r ∈ [energyFlux spec, hfc spec sr, spectralFlux spec, superflux M spec k],
      ∃ c, r = .ok c ∧ (1 ∈ c ∨ ∀ x ∈ c, x ≤ 1e-10) := by
  have hne : spec ≠ [] := by rintro rfl; simp at h2
  have g126 : (rnd (pow2 126)).isFinite = true := by decide +kernel
  have z126 : (0 : F32) ≤ rnd (pow2 126) := by decide +kernel
  intro r hr
  simp only [List.mem_cons, List.not_mem_nil, or_false] at hr
  rcases hr with rfl | rfl | rfl | rfl
  · refine ⟨_, by unfold energyFlux; rw [if_neg (by omega), check_valid hv]; rfl, peakNorm_one fun x hx => ?_⟩
    refine ⟨rise_nonneg _ x hx, le_finite (rise_nonneg _ x hx) (rise_bound g126 z126 ?_ x hx) g126⟩
    intro e he
    obtain ⟨fr, hfr, rfl⟩ := List.mem_map.1 he
    exact energy_bound (hp fr hfr)
  · refine ⟨_, by unfold hfc; rw [if_neg hne, if_neg (by omega), if_neg (by omega), check_valid hv]; rfl,
      peakNorm_one fun x hx => ?_⟩
    refine ⟨rise_nonneg _ x hx, le_finite (rise_nonneg _ x hx) (rise_bound g126 z126 ?_ x hx) g126⟩
    intro e he
    obtain ⟨fr, hfr, rfl⟩ := List.mem_map.1 he
    exact hfcFrom_bound (hp fr hfr) (by have := hb fr hfr; omega)
  · refine ⟨_, by unfold spectralFlux; rw [if_neg (by omega), check_valid hv]; rfl, peakNorm_one (pairs_all ?_)⟩
    intro a b ha hb'
    obtain ⟨fa, hfa, rfl⟩ := List.mem_map.1 ha
    obtain ⟨fb, hfb, rfl⟩ := List.mem_map.1 hb'
    exact ⟨spectralStep_nonneg _ _, spectralStep_finite (normFrame_small fun x hx => plain_finite (hp fa hfa x hx))
      (normFrame_small fun x hx => plain_finite (hp fb hfb x hx))⟩
  · refine ⟨_, by unfold superflux; rw [if_neg (by omega), check_valid hv]; rfl, peakNorm_one (pairs_all ?_)⟩
    intro a b ha hb'
    obtain ⟨fa, hfa, rfl⟩ := List.mem_map.1 ha
    obtain ⟨fb, hfb, rfl⟩ := List.mem_map.1 hb'
    exact ⟨superStep_nonneg _ _ _ _ _, superStep_finite (logFrame_small hM (hp fa hfa)) (logFrame_small hM (hp fb hfb))⟩

example : LnSane rampLibm ∧ Valid [[0, 1], [2, 4]] ∧ superflux rampLibm [[0, 1], [2, 4]] 1 = .ok [1] := by
  refine ⟨ramp_sane, ?_⟩
  unfold Valid; decide +kernel

/-! ### Bands -/

theorem band_band {l : List F32} {s e a b : ℕ} (hs : s ≤ e) (hb : b ≤ e - s) : band a b (band s e l) = band (s + a) (s + b) l := by
  unfold band
  rw [List.take_drop, List.drop_drop, List.take_take, Nat.min_eq_left (by omega)]

theorem band_map {f : F32 → F32} (l : List F32) (s e : ℕ) : band s e (l.map f) = (band s e l).map f := by
  unfold band; rw [← List.map_take, ← List.map_drop]

theorem band_at {l : List F32} {s e b : ℕ} (hb : s + b < e) : Novelty.at' (band s e l) b = Novelty.at' l (s + b) := by
  unfold band Novelty.at'
  rw [List.getD_eq_getElem?_getD, List.getElem?_drop, List.getElem?_take, if_pos hb, List.getD_eq_getElem?_getD]

theorem superStep_band (k : ℕ) {s e : ℕ} (hs : s ≤ e) (prev curr : List F32) :
    superStep k s e prev curr = superStep k 0 (e - s) (band s e prev) (band s e curr) := by
  unfold superStep
  rw [show List.range' s (e - s) = (List.range' 0 (e - s - 0)).map (fun b => s + b) by
    rw [List.map_add_range']; simp]
  rw [List.map_map]
  congr 2
  apply List.map_congr_left
  intro b hb
  rw [List.mem_range'] at hb
  obtain ⟨j, hj, rfl⟩ := hb
  simp only [Function.comp, Nat.zero_add, Nat.one_mul]
  rw [band_at (by omega)]
  have : prevMax k s e (s + j) prev = prevMax k 0 (e - s) j (band s e prev) := by
    unfold prevMax
    rw [band_band hs (Nat.min_le_right _ _)]
    congr 2
    · show max (s + j - k) s = s + max (j - k) 0; omega
    · show min (s + j + k + 1) e = s + min (j + k + 1) (e - s); omega
  rw [this]

/-- the spectrogram restricted to the bins `[s, e)` -/
def crop (s e : ℕ) (spec : List (List F32)) : List (List F32) := spec.map (fun fr => (fr.drop s).take (e - s))

theorem crop_eq {s e : ℕ} (spec : List (List F32)) : crop s e spec = spec.map (band s e) := by
  unfold crop band
  apply List.map_congr_left
  intro fr _
  rw [← List.drop_take]

theorem crop_valid {spec : List (List F32)} (hv : Valid spec) (hne : spec ≠ []) {s e : ℕ} (h : s + 1 < e)
    (he : e ≤ (spec.headD []).length) : Valid (crop s e spec) ∧ ((crop s e spec).headD []).length = e - s := by
  obtain ⟨f, fs, rfl⟩ := List.exists_cons_of_ne_nil hne
  have hf : f.length = ((f :: fs).headD []).length := rfl
  have hl : ∀ fr ∈ f :: fs, ((fr.drop s).take (e - s)).length = e - s := by
    intro fr hfr
    have := hv.2 fr hfr
    simp; omega
  have h1 : ((crop s e (f :: fs)).headD []).length = e - s := hl f (by simp)
  refine ⟨⟨by omega, fun fr hfr => ?_⟩, h1⟩
  obtain ⟨fr', hfr', rfl⟩ := List.mem_map.1 hfr
  rw [h1]; exact hl fr' hfr'

/-- **C74: band-limited superflux and energy-flux novelty are the novelty of the cropped spectrogram.** -/
theorem C74_band (M : Libm) (spec : List (List F32)) (k s e : ℕ) (hv : Valid spec) (h2 : 2 ≤ spec.length) (h : s + 1 < e)
    (he : e ≤ (spec.headD []).length) :
    superfluxBand M spec k s e = superflux M (crop s e spec) k ∧ energyFluxBand spec s e = energyFlux (crop s e spec) := by
  have hne : spec ≠ [] := by rintro rfl; simp at h2
  obtain ⟨hv', hl'⟩ := crop_valid hv hne h he
  have hlen : (crop s e spec).length = spec.length := by simp [crop]
  have ms : Nat.min s (spec.headD []).length = s := Nat.min_eq_left (by omega)
  have me : Nat.min e (spec.headD []).length = e := Nat.min_eq_left he
  have hk1 : ¬ spec.length < 2 := by omega
  have hk2 : ¬ (crop s e spec).length < 2 := by omega
  constructor
  · unfold superfluxBand superflux
    rw [if_neg hk1, if_neg hk2, check_valid hv, check_valid hv', hl']
    show (if Nat.min e (spec.headD []).length ≤ Nat.min s (spec.headD []).length + 1 then (.ok [] : R (List F32)) else _) = _
    rw [ms, me, if_neg (by omega)]
    show Except.ok (peakNorm _) = Except.ok (peakNorm _)
    congr 2
    unfold pairs
    simp only [List.length_map, hlen]
    apply List.map_congr_left
    intro i _
    rw [map_getD_list rfl, map_getD_list rfl, map_getD_list rfl, map_getD_list rfl, crop_eq,
      map_getD_list (by simp [band]), map_getD_list (by simp [band]), ← band_map, ← band_map]
    exact superStep_band _ (by omega) _ _
  · unfold energyFluxBand energyFlux
    rw [if_neg hk1, if_neg hk2, check_valid hv, check_valid hv']
    show (if Nat.min e (spec.headD []).length ≤ Nat.min s (spec.headD []).length + 1 then (.ok [] : R (List F32)) else _) = _
    rw [ms, me, if_neg (by omega), crop_eq, List.map_map]
    rfl

/-- a band of fewer than two bins, or entirely above the spectrum, gives an empty curve; a band that reaches beyond the
spectrum is cut off there -/
theorem C74_clip (M : Libm) (spec : List (List F32)) (k s e : ℕ) (hv : Valid spec) (h2 : 2 ≤ spec.length) :
    (min e (spec.headD []).length ≤ s + 1 → superfluxBand M spec k s e = .ok [] ∧ energyFluxBand spec s e = .ok [] ∧
      hfcBand spec s e = .ok []) ∧
    ((spec.headD []).length ≤ e → superfluxBand M spec k s e = superfluxBand M spec k s (spec.headD []).length ∧
      energyFluxBand spec s e = energyFluxBand spec s (spec.headD []).length ∧
      hfcBand spec s e = hfcBand spec s (spec.headD []).length) := by
  constructor
  · intro h
    have hcond : Nat.min e (spec.headD []).length ≤ Nat.min s (spec.headD []).length + 1 := by
      show Min.min e _ ≤ Min.min s _ + 1; omega
    refine ⟨?_, ?_, ?_⟩
    · unfold superfluxBand; rw [if_neg (by omega), check_valid hv]
      show (if _ then (.ok [] : R (List F32)) else _) = _
      rw [if_pos hcond]
    · unfold energyFluxBand; rw [if_neg (by omega), check_valid hv]
      show (if _ then (.ok [] : R (List F32)) else _) = _
      rw [if_pos hcond]
    · unfold hfcBand; rw [if_neg (by omega), check_valid hv]
      show (if _ then (.ok [] : R (List F32)) else _) = _
      rw [if_pos hcond]
  · intro h
    have hm : Nat.min e (spec.headD []).length = Nat.min (spec.headD []).length (spec.headD []).length := by
      exact (Nat.min_eq_right h).trans (Nat.min_eq_left (Nat.le_refl _)).symm
    unfold superfluxBand energyFluxBand hfcBand
    simp only [hm, and_self]

/-- the band over all bins is the full curve, for high-frequency content too -/
theorem C74_full (M : Libm) (spec : List (List F32)) (sr k : ℕ) (hs : 0 < sr) (hv : Valid spec) (h2 : 2 ≤ spec.length)
    (hb : 2 ≤ (spec.headD []).length) :
    superfluxBand M spec k 0 (spec.headD []).length = superflux M spec k ∧
    energyFluxBand spec 0 (spec.headD []).length = energyFlux spec ∧
    hfcBand spec 0 (spec.headD []).length = hfc spec sr := by
  have hne : spec ≠ [] := by rintro rfl; simp at h2
  have hcr : crop 0 (spec.headD []).length spec = spec := by
    unfold crop
    conv_rhs => rw [← List.map_id spec]
    apply List.map_congr_left
    intro fr hfr
    rw [List.drop_zero, Nat.sub_zero, List.take_of_length_le (by rw [hv.2 fr hfr])]; rfl
  obtain ⟨a, b⟩ := C74_band M spec k 0 _ hv h2 (by omega) (Nat.le_refl _)
  rw [hcr] at a b
  refine ⟨a, b, ?_⟩
  unfold hfcBand hfc
  have hk1 : ¬ spec.length < 2 := by omega
  have hk2 : ¬ sr = 0 := by omega
  rw [if_neg hk1, if_neg hne, if_neg hk2, if_neg hk1, check_valid hv]
  show (if Nat.min _ (spec.headD []).length ≤ Nat.min 0 (spec.headD []).length + 1 then (.ok [] : R (List F32)) else _) = _
  have h0 : Nat.min 0 (spec.headD []).length = 0 := Nat.min_eq_left (Nat.zero_le _)
  have h1 : Nat.min (spec.headD []).length (spec.headD []).length = (spec.headD []).length := Nat.min_eq_left (Nat.le_refl _)
  rw [h0, h1, if_neg (by omega)]
  show Except.ok (peakNorm (rise _)) = Except.ok (peakNorm (rise _))
  congr 3
  apply List.map_congr_left
  intro fr hfr
  unfold band
  rw [List.drop_zero, List.take_of_length_le (by rw [hv.2 fr hfr])]

example : Valid [[1, 2, 3], [4, 1, 6]] ∧ energyFluxBand [[1, 2, 3], [4, 1, 6]] 1 3 = energyFlux [[2, 3], [1, 6]] := by
  unfold Valid; decide +kernel

end Verif.Props
