/-
Mel-band superflux novelty (C26).
-/
import Verif.Props.NoveltyRise

namespace Verif.Props
open Verif F32 Novelty

/-- a positive quotient of ordered non-negative finite numbers is at most 1 -/
theorem slope_le_one {x y : F32} (hx : 0 ≤ x) (h : x ≤ y) (hf : y.isFinite = true) (hq : 0 < x / y) : x / y ≤ 1 := by
  obtain ⟨b, hb, rfl⟩ := isFinite_iff.1 hf
  rw [zero_def] at hx
  obtain ⟨a, ha, rfl, a0, a1⟩ := between_cases hx h
  rcases (_root_.le_trans a0 a1).eq_or_lt with e | b0
  · subst e
    have : a = 0 := _root_.le_antisymm a1 a0
    subst this
    exact absurd hq (by rw [div_fin_zero]; decide +kernel)
  · exact (F32.div_le_one (by rw [zero_def, fin_le_fin]; exact a0) h (by rw [zero_def, fin_lt_fin]; exact b0) hf).2

theorem nat_sub {m n k : ℕ} (h : m ≤ n) (hk : n ≤ k) (hb : k ≤ 2 ^ 127) :
    0 ≤ F32.ofNat n - F32.ofNat m ∧ F32.ofNat n - F32.ofNat m ≤ F32.ofNat k - F32.ofNat m ∧
    F32.ofNat k - F32.ofNat n ≤ F32.ofNat k - F32.ofNat m ∧ (F32.ofNat k - F32.ofNat m).isFinite = true := by
  obtain ⟨a, ha, ea⟩ := isFinite_iff.1 (ofNat_finite (show m ≤ 2 ^ 127 by omega))
  obtain ⟨b, hb', eb⟩ := isFinite_iff.1 (ofNat_finite (show n ≤ 2 ^ 127 by omega))
  obtain ⟨c, hc, ec⟩ := isFinite_iff.1 (ofNat_finite hb)
  have h1 := ofNat_mono h
  have h2 := ofNat_mono hk
  have h3 := ofNat_nonneg m
  rw [ea, eb, fin_le_fin] at h1
  rw [eb, ec, fin_le_fin] at h2
  rw [ea, zero_def, fin_le_fin] at h3
  rw [ea, eb, ec, sub_fin, sub_fin, sub_fin]
  refine ⟨rnd_nonneg (by linarith), rnd_mono (by linarith), rnd_mono (by linarith), ?_⟩
  refine isFinite_of_between (lo := 0) (hi := fin c hc) (by decide +kernel) rfl (rnd_nonneg (by linarith)) (rnd_le_fin (by linarith))

/-- every weight of the filterbank is positive and at most 1, and belongs to an existing filter -/
theorem contribs_range {nMels : ℕ} {pts : List ℕ} (hp : ∀ p ∈ pts, p ≤ 2 ^ 127) :
    ∀ c ∈ contribs nMels pts, c.2.1 < nMels ∧ 0 < c.2.2 ∧ c.2.2 ≤ 1 := by
  have hget : ∀ i, pts.getD i 0 ≤ 2 ^ 127 := by
    intro i
    rw [List.getD_eq_getElem?_getD]
    rcases e : pts[i]? with _ | p
    · simp
    · exact hp p (List.mem_of_getElem? e)
  intro c hc
  unfold contribs at hc
  obtain ⟨m, hm, hc⟩ := List.mem_flatMap.1 hc
  rw [List.mem_range] at hm
  dsimp only at hc
  split_ifs at hc with h
  · rcases List.mem_append.1 hc with hc | hc
    · obtain ⟨b, hb, hw⟩ := List.mem_filterMap.1 hc
      rw [List.mem_range'] at hb
      obtain ⟨j, hj, rfl⟩ := hb
      dsimp only at hw
      split_ifs at hw with hj0 hpos hpos
      · exact absurd hpos (by decide +kernel)
      · cases hw
        obtain ⟨n1, n2, -, n4⟩ := nat_sub (m := pts.getD m 0) (n := pts.getD m 0 + 1 * j) (k := pts.getD (m + 1) 0)
          (by omega) (by omega) (hget _)
        exact ⟨hm, hpos, slope_le_one n1 n2 n4 hpos⟩
    · obtain ⟨b, hb, hw⟩ := List.mem_filterMap.1 hc
      rw [List.mem_range'] at hb
      obtain ⟨j, hj, rfl⟩ := hb
      dsimp only at hw
      split_ifs at hw with hj0 hpos hpos
      · exact absurd hpos (by decide +kernel)
      · cases hw
        obtain ⟨-, -, n3, n4⟩ := nat_sub (m := pts.getD (m + 1) 0) (n := pts.getD (m + 1) 0 + 1 * j)
          (k := pts.getD (m + 2) 0) (by omega) (by omega) (hget _)
        obtain ⟨n1, -, -, -⟩ := nat_sub (m := pts.getD (m + 1) 0 + 1 * j) (n := pts.getD (m + 2) 0)
          (k := pts.getD (m + 2) 0) (by omega) (le_refl _) (hget _)
        exact ⟨hm, hpos, slope_le_one n1 n3 n4 hpos⟩
  · simp at hc

theorem spread_le {nBins : ℕ} {ps : List ℕ} (h : ∀ p ∈ ps, p ≤ nBins) : ∀ p ∈ spreadAll nBins ps, p ≤ nBins := by
  have key : ∀ ps : List ℕ, (∀ p ∈ ps, p ≤ nBins) → ∀ q, ∀ p ∈ spreadPoints nBins q ps, p ≤ nBins := by
    intro ps
    induction ps with
    | nil => intro _ q p hp; simp [spreadPoints] at hp
    | cons a ps ih =>
      intro h q p hp
      unfold spreadPoints at hp
      dsimp only at hp
      rcases List.mem_cons.1 hp with rfl | hp
      · split_ifs
        · exact Nat.le_trans (Nat.min_le_right _ _) (Nat.sub_le _ _)
        · exact h a (by simp)
      · exact ih (fun x hx => h x (by simp [hx])) _ p hp
  rcases ps with _ | ⟨a, ps⟩
  · simp [spreadAll]
  · intro p hp
    unfold spreadAll at hp
    rcases List.mem_cons.1 hp with rfl | hp
    · exact h p (by simp)
    · exact key ps (fun x hx => h x (by simp [hx])) _ p hp

/-- the filterbank exists when the band from the clamped `fmin` to the Nyquist frequency is at least 1 Hz wide -/
theorem filterbank_ok (M : Libm) {sr nBins : ℕ} (nMels : ℕ) {fmin : F32} (fmax : F32) (hs : 0 < sr) (hb : 2 ≤ nBins)
    (hf : F32.max fmin 0 + 1 ≤ F32.ofNat sr * 0.5) :
    ∃ cs, filterbank M sr nBins nMels fmin fmax = .ok (Nat.max nMels 4, cs) ∧
      (nBins ≤ 2 ^ 127 → ∀ c ∈ cs, c.2.1 < Nat.max nMels 4 ∧ 0 < c.2.2 ∧ c.2.2 ≤ 1) := by
  have h0 : 0 ≤ F32.max fmin 0 := le_max_right zero_ne_nan
  have hle : F32.max fmin 0 ≤ F32.max fmin 0 + 1 := by
    rcases nonneg_cases h0 with e | ⟨v, hv, e, v0⟩
    · rw [e]; decide +kernel
    · rw [e, one_def, add_fin]; exact fin_le_rnd (by linarith)
  have hq : F32.min (F32.max fmin 0) (F32.max (F32.ofNat sr * 0.5) 1) = F32.max fmin 0 :=
    F32.le_antisymm (F32.min_le_left (ne_nan_right h0)) (F32.le_min (F32.le_refl (ne_nan_right h0))
      (F32.le_trans hle (F32.le_trans hf (le_max_left (ne_nan_right hf)))))
  unfold filterbank
  rw [if_neg (by omega), if_neg (by omega)]
  unfold clampP
  simp only [hq]
  rw [if_pos hf]
  refine ⟨_, rfl, fun hn => contribs_range fun p hp => Nat.le_trans (spread_le ?_ p hp) hn⟩
  intro p hp
  obtain ⟨i, -, rfl⟩ := List.mem_map.1 hp
  unfold binPoint
  exact Nat.le_trans (Nat.min_le_right _ _) (Nat.sub_le _ _)

/-- **C26 (mel, all inputs)**: for a positive sample rate, at least two bins and a lower edge at least 1 Hz below the
Nyquist frequency, the mel superflux curve has one value per frame transition, each in `[0,1]` or NaN, for every
spectrogram, number of bands, upper edge and filter width. -/
theorem C26_mel (M : Libm) (spec : List (List F32)) (sr nMels k : ℕ) (fmin fmax : F32) (hs : 0 < sr)
    (hb : Valid spec → 2 ≤ (spec.headD []).length) (hf : F32.max fmin 0 + 1 ≤ F32.ofNat sr * 0.5) :
    IsNovelty UnitOrNaN spec (melSuperflux M spec sr nMels fmin fmax k) := by
  unfold melSuperflux
  refine ⟨fun h => by rw [if_pos h], fun h hv => ?_, fun h hv => ?_⟩
  · obtain ⟨cs, e, -⟩ := filterbank_ok M nMels fmax hs (hb hv) hf
    rw [if_neg (by omega), check_valid hv]
    refine ⟨_, by rw [e]; rfl, ?_⟩
    have h0 := pairs_all (f := superStep (Nat.max k 1) 0 (Nat.max nMels 4))
      (frames := spec.map (applyLogmag M (Nat.max nMels 4, cs))) (P := (0 ≤ ·)) (fun a b _ _ => superStep_nonneg _ _ _ a b)
    have := peakNorm_spec h0
    exact ⟨by rw [this.1, pairs_length]; simp, this.2.1⟩
  · rw [if_neg (by omega), check_invalid hv]; rfl

/-- the accumulators never exceed `2^50`: beyond that, terms of at most 128 are absorbed by rounding -/
theorem melAdd_small {bank : List (ℕ × ℕ × F32)} (hw : ∀ c ∈ bank, 0 < c.2.2 ∧ c.2.2 ≤ 1) {v : F32} (v0 : 0 ≤ v)
    (v1 : v ≤ 128) (b : ℕ) {acc : List F32} (ha : Small acc) : Small (melAdd bank v b acc) := by
  unfold melAdd
  have key : ∀ l : List (ℕ × ℕ × F32), (∀ c ∈ l, 0 < c.2.2 ∧ c.2.2 ≤ 1) → ∀ acc, Small acc →
      Small (l.foldl (fun acc c => acc.modify c.2.1 (fun x => x + v * c.2.2)) acc) := by
    intro l
    induction l with
    | nil => intro _ acc h; exact h
    | cons c l ih =>
      intro hl acc h
      rw [List.foldl_cons]
      refine ih (fun x hx => hl x (by simp [hx])) _ ?_
      obtain ⟨w0, w1⟩ := hl c (by simp)
      intro x hx
      obtain ⟨i, hi, rfl⟩ := List.getElem_of_mem hx
      rw [List.getElem_modify]
      have hi' : i < acc.length := by simpa using hi
      have hx' := h _ (List.getElem_mem hi')
      split_ifs with hci
      · obtain ⟨g, eg⟩ := g50
        have e128 : ∃ h, (128 : F32) = fin 128 h := ⟨by decide +kernel, by decide +kernel⟩
        obtain ⟨g8, e8⟩ := e128
        have w0' := F32.le_of_lt w0
        rw [zero_def] at v0 w0'
        rw [e8] at v1
        rw [one_def] at w1
        rw [zero_def, eg] at hx'
        obtain ⟨w, hw', ew, w2, w3⟩ := between_cases w0' w1
        obtain ⟨z, hz, rfl, z2, z3⟩ := between_cases v0 v1
        obtain ⟨y, hy, ey, y2, y3⟩ := between_cases hx'.1 hx'.2
        rw [ey, ew, mul_fin]
        have t0 : fin 0 grid_zero ≤ rnd (z * w) := by rw [← zero_def]; exact rnd_nonneg (by positivity)
        have t1 : rnd (z * w) ≤ fin 128 g8 := rnd_le_fin (by nlinarith)
        obtain ⟨t, ht, et, t2, t3⟩ := between_cases t0 t1
        rw [et, add_fin]
        refine ⟨rnd_nonneg (by linarith), ?_⟩
        have : rnd (pow2 50 + 128) = rnd (pow2 50) := by decide +kernel
        rw [← this]
        exact rnd_mono (by linarith)
      · exact hx'
  exact key _ (fun c hc => hw c (List.mem_filter.1 hc).1) acc ha

theorem applyLogmag_small {M : Libm} (hM : LnSane M) {bank : ℕ × List (ℕ × ℕ × F32)}
    (hw : ∀ c ∈ bank.2, 0 < c.2.2 ∧ c.2.2 ≤ 1) {fr : List F32} (h : ∀ x ∈ fr, Plain x) : Small (applyLogmag M bank fr) := by
  have key : ∀ fr : List F32, (∀ x ∈ fr, Plain x) → ∀ b acc, Small acc → Small (melLoop M bank.2 b fr acc) := by
    intro fr
    induction fr with
    | nil => intro _ b acc h; exact h
    | cons x fr ih =>
      intro h b acc ha
      unfold melLoop
      dsimp only
      refine ih (fun y hy => h y (by simp [hy])) _ _ ?_
      split_ifs
      · exact ha
      · obtain ⟨l0, l1⟩ := logMag_range hM (h x (by simp))
        exact melAdd_small hw l0 l1 b ha
  unfold applyLogmag
  refine key fr h 0 _ ?_
  intro x hx
  rw [List.eq_of_mem_replicate hx]
  exact ⟨by decide +kernel, by decide +kernel⟩

/-- **C26 (mel, range, partial)**: and all values are in `[0,1]` when every magnitude is NaN or between 0 and `2^30`.
Missing: larger magnitudes (of which only infinity can fail), and lower edges within 1 Hz of the Nyquist frequency, where
the function panics (`C26_violated_panic`). -/
theorem C26_mel_partial (M : Libm) (hM : LnSane M) (spec : List (List F32)) (sr nMels k : ℕ) (fmin fmax : F32) (hs : 0 < sr)
    (hb : Valid spec → 2 ≤ (spec.headD []).length) (hn : (spec.headD []).length ≤ 2 ^ 127)
    (hf : F32.max fmin 0 + 1 ≤ F32.ofNat sr * 0.5) (hv : ∀ fr ∈ spec, ∀ x ∈ fr, Plain x) :
    IsNovelty InUnit spec (melSuperflux M spec sr nMels fmin fmax k) := by
  unfold melSuperflux
  refine ⟨fun h => by rw [if_pos h], fun h hv' => ?_, fun h hv => ?_⟩
  · obtain ⟨cs, e, hcs⟩ := filterbank_ok M nMels fmax hs (hb hv') hf
    rw [if_neg (by omega), check_valid hv']
    refine ⟨_, by rw [e]; rfl, ?_⟩
    have h0 := pairs_all (f := superStep (Nat.max k 1) 0 (Nat.max nMels 4))
      (frames := spec.map (applyLogmag M (Nat.max nMels 4, cs))) (P := (0 ≤ ·)) (fun a b _ _ => superStep_nonneg _ _ _ a b)
    have := peakNorm_spec h0
    refine ⟨by rw [this.1, pairs_length]; simp, this.2.2 (pairs_all ?_)⟩
    intro a b ha hb'
    obtain ⟨fa, hfa, rfl⟩ := List.mem_map.1 ha
    obtain ⟨fb, hfb, rfl⟩ := List.mem_map.1 hb'
    exact superStep_finite (applyLogmag_small hM (fun c hc => (hcs hn c hc).2) (hv fa hfa))
      (applyLogmag_small hM (fun c hc => (hcs hn c hc).2) (hv fb hfb))
  · rw [if_neg (by omega), check_invalid hv]; rfl

/-- non-vacuity: 44.1 kHz, 30 Hz to 8 kHz, three frames -/
example : LnSane rampLibm ∧ F32.max 30 0 + 1 ≤ F32.ofNat 44100 * 0.5 ∧
    ∃ c, melSuperflux rampLibm [[1, 2, 3, 1, 5], [0, 1, 2, 6, 1], [3, 3, 3, 3, 3]] 44100 4 30 8000 1 = .ok c ∧ c.length = 2 := by
  refine ⟨ramp_sane, by decide +kernel, ?_⟩
  obtain ⟨c, e, l, -⟩ := (C26_mel rampLibm [[1, 2, 3, 1, 5], [0, 1, 2, 6, 1], [3, 3, 3, 3, 3]] 44100 4 1 30 8000 (by decide)
    (fun _ => by decide) (by decide +kernel)).2.1 (by decide) (by unfold Valid; decide)
  exact ⟨c, e, l⟩

/-- **C26 is violated by the mel curve at low sample rates**: with sample rates up to `2^23` Hz, whenever the lower edge
is not at least 1 Hz below the Nyquist frequency, `clamp(fmin + 1, nyquist)` panics on every valid spectrogram of two or
more frames, instead of returning a curve or an error. -/
theorem C26_violated_panic (M : Libm) (spec : List (List F32)) (sr nMels k : ℕ) (fmin fmax : F32) (hs : 0 < sr)
    (hs' : sr ≤ 2 ^ 23) (hv : Valid spec) (h2 : 2 ≤ spec.length) (hb : 2 ≤ (spec.headD []).length)
    (hf : ¬ F32.max fmin 0 + 1 ≤ F32.ofNat sr * 0.5) : melSuperflux M spec sr nMels fmin fmax k = R.panic := by
  have half : ∀ n : ℕ, n ≤ 2 ^ 24 → OnGrid ((n : ℚ) / 2) ∧ |(n : ℚ) / 2| < pow2 128 := by
    intro n hn
    constructor
    · have := onGrid_of_scaled (m := n) (e := -1) (by rw [abs_of_nonneg (by omega)]; exact_mod_cast hn) (by omega)
      rw [show (n : ℚ) / 2 = ((n : ℤ) : ℚ) * pow2 (-1) by rw [pow2_eq]; push_cast; norm_num; ring]
      exact this
    · rw [abs_of_nonneg (by positivity), pow2_eq]
      have : (n : ℚ) ≤ 2 ^ 24 := by exact_mod_cast hn
      have : (2 : ℚ) ^ 24 / 2 < 2 ^ (128 : ℤ) := by norm_num
      linarith
  have en : F32.ofNat sr * 0.5 = fin (sr / 2 : ℚ) (half sr (by omega)) := by
    have e5 : ∃ h, (0.5 : F32) = fin (1 / 2) h := ⟨by decide +kernel, by decide +kernel⟩
    obtain ⟨g5, e5⟩ := e5
    have eo : F32.ofNat sr = fin (sr : ℚ) (grid_nat (by omega)) := rnd_val _
    rw [eo, e5, mul_fin, show (sr : ℚ) * (1 / 2) = sr / 2 by ring]
    exact rnd_val _
  have hp : ¬ F32.min (F32.max fmin 0) (F32.max (F32.ofNat sr * 0.5) 1) + 1 ≤ F32.ofNat sr * 0.5 := by
    rcases F32.min_eq_left_or_right (F32.max fmin 0) (F32.max (F32.ofNat sr * 0.5) 1) with e | e
    · rw [e]; exact hf
    · rw [e]
      intro hc
      have hmax : F32.ofNat sr * 0.5 + 1 ≤ F32.max (F32.ofNat sr * 0.5) 1 + 1 := by
        have e1 : F32.ofNat sr * 0.5 ≤ F32.max (F32.ofNat sr * 0.5) 1 := le_max_left (by rw [en]; simp)
        refine F32.add_le_add e1 (F32.le_refl one_ne_nan) ?_ (ne_nan_left hc)
        rw [en, one_def, add_fin]; exact rnd_ne_nan _
      have := F32.le_trans hmax hc
      rw [en, one_def, add_fin, show (sr : ℚ) / 2 + 1 = ((sr + 2 : ℕ) : ℚ) / 2 by push_cast; ring,
        rnd_val (half (sr + 2) (by omega)), fin_le_fin] at this
      push_cast at this
      linarith
  have hbank : filterbank M sr (spec.headD []).length nMels fmin fmax = R.panic := by
    unfold filterbank clampP
    rw [if_neg (by omega), if_neg (by omega)]
    simp only [if_neg hp]
    rfl
  unfold melSuperflux
  rw [if_neg (by omega), check_valid hv, hbank]
  rfl

example : Valid [[1, 2], [3, 4]] ∧ ¬ F32.max 0 0 + 1 ≤ F32.ofNat 1 * 0.5 ∧ ¬ F32.max 4000 0 + 1 ≤ F32.ofNat 8000 * 0.5 := by
  unfold Valid; decide +kernel

end Verif.Props
