/-
Property theorems C135: a recording resampled to a power-of-two multiple of its sample rate, analysed with hops of the same
duration, has the same onsets and the same tempo (src/features/onset/consensus.rs, src/features/period/).
-/
import Verif.Lemmas.Consensus
import Verif.Lemmas.Estimators
import Verif.Model.Tempogram
import Verif.Props.HalfTempo

namespace Verif.Props
open Verif Verif.Consensus Verif.F32 Verif.Period Verif.Tempogram

/-! ### Specification -/

/-- sample positions after resampling to `2^k` times the rate -/
def resampled (k : ℕ) (l : List ℕ) : List ℕ := l.map (2 ^ k * ·)

/-- all four onset lists resampled -/
def resampledInput (k : ℕ) (i : Input) : Input :=
  ⟨resampled k i.energyFlux, resampled k i.spectralFlux, resampled k i.hfc, resampled k i.hpss⟩

/-- the same onset on a `2^k` times finer sample grid: inside the same coarse sample, with the same confidence and votes -/
def SameOnset (k : ℕ) (c c' : Candidate) : Prop :=
  c'.confidence = c.confidence ∧ c'.votedBy = c.votedBy ∧
  2 ^ k * c.timeSamples ≤ c'.timeSamples ∧ c'.timeSamples < 2 ^ k * (c.timeSamples + 1)

/-! ### Numbers -/

theorem ofNat_vol {k n : ℕ} {e : ℕ} (he : e ≤ 127) (h : 2 ^ k * n ≤ 2 ^ e) : Vol k 0 e (F32.ofNat n) (F32.ofNat (2 ^ k * n)) := by
  have e1 : (((2 ^ k * n : ℕ) : ℕ) : ℚ) = pow2 k * n := by rw [pow2_nat]; push_cast; ring
  unfold F32.ofNat
  rw [e1]
  have h0 : n = 0 ∨ pow2 0 ≤ ((n : ℕ) : ℚ) := by
    rcases Nat.eq_zero_or_pos n with h | h
    · exact .inl h
    · right; rw [show pow2 0 = 1 by rw [pow2_eq]; norm_num]; exact_mod_cast h
  refine vol_rnd (by positivity) (h0.imp (fun h => by rw [h]; rfl) id) ?_ (by norm_num) (by norm_num) (by omega) (by omega) ?_
  · rw [← e1, pow2_nat]; exact_mod_cast h
  · rcases h0 with rfl | h0
    · rw [Nat.cast_zero, mul_zero, rndQ_zero, mul_zero]
    · exact rndQ_scale (by rw [abs_of_nonneg (by positivity)]; exact (pow2_le' (by norm_num)).trans h0) (by positivity)

/-- a positive number of ordinary size as a constant -/
theorem ordinary_const {b : F32} (h : OrdinaryLevel b) (h0 : 0 < b) : Vol 0 (-40) 20 b b := by
  rcases h with rfl | ⟨h1, h2⟩
  · exact absurd h0 (F32.lt_irrefl _)
  rw [rnd_val (pow2_grid (by omega) (by omega))] at h1 h2
  rcases nonneg_cases (F32.le_of_lt h0) with rfl | ⟨v, hv, rfl, v0⟩
  · cases h2
  have ea : (fin v hv).abs = fin v hv := by
    show fin |v| _ = fin v hv
    congr 1; exact _root_.abs_of_nonneg v0
  rw [ea] at h1 h2
  have e : pow2 ((0 : ℕ) : ℤ) * v = v := by rw [pow2_nat]; ring
  exact ⟨v, hv, by rw [e]; exact hv, rfl, by congr 1; exact e.symm, v0, .inr (fin_le_fin.1 h1), by rw [e]; exact fin_le_fin.1 h2⟩

theorem ordinary_ne_nan {b : F32} (h : OrdinaryLevel b) : b ≠ nan := by
  rintro rfl
  revert h
  unfold OrdinaryLevel
  decide +kernel

theorem minute_vol {k sr : ℕ} (h : 2 ^ k * sr ≤ 2 ^ 52) : Vol k 0 58 (60 * F32.ofNat sr) (60 * F32.ofNat (2 ^ k * sr)) := by
  obtain ⟨h60, e⟩ := lit60
  rw [e]
  have := (ofNat_vol (by norm_num) h).mul_const (c := 60) (hc := h60) (lo' := 0) (hi' := 6) (by norm_num)
    (.inr (by rw [pow2_eq]; norm_num)) (by rw [pow2_eq]; norm_num) (by norm_num) (by norm_num) (by norm_num) (by norm_num)
  norm_num at this
  exact this

/-! ### Tempograms -/

theorem rate_same {c sr hop : ℕ} (hc : 0 < c) (h1 : c * sr ≤ 2 ^ 24) (h2 : c * hop ≤ 2 ^ 24) (h0 : 0 < hop) :
    F32.ofNat (c * sr) / F32.ofNat (c * hop) = F32.ofNat sr / F32.ofNat hop := by
  have h3 : sr ≤ c * sr := Nat.le_mul_of_pos_left _ hc
  have h4 : hop ≤ c * hop := Nat.le_mul_of_pos_left _ hc
  have c0 : (c : ℚ) ≠ 0 := by exact_mod_cast hc.ne'
  have d0 : (hop : ℚ) ≠ 0 := by exact_mod_cast h0.ne'
  rw [ofNat_exact h1, ofNat_exact h2, ofNat_exact (h3.trans h1), ofNat_exact (h4.trans h2), div_fin d0,
    div_fin (by push_cast; exact mul_ne_zero c0 d0)]
  push_cast
  rw [mul_div_mul_left _ _ c0]

/-- **C135 (tempograms).** Both tempograms of a novelty curve depend on the sample rate and the hop size only through their
ratio: multiplying both by any factor changes no tempo and no strength. -/
theorem C135_tempogram (M : Libm) (fft : List F32 → ℕ → F32 × F32) (fuel : ℕ) (nov : List F32) (c sr hop : ℕ) (minB maxB res : F32)
    (hc : 0 < c) (h1 : c * sr ≤ 2 ^ 24) (h2 : c * hop ≤ 2 ^ 24) :
    acTempogram fuel nov (c * sr) (c * hop) minB maxB res = acTempogram fuel nov sr hop minB maxB res ∧
    fftTempogram M fft nov (c * sr) (c * hop) minB maxB = fftTempogram M fft nov sr hop minB maxB := by
  unfold acTempogram fftTempogram
  simp only [Nat.mul_eq_zero, hc.ne', false_or]
  rcases Nat.eq_zero_or_pos hop with rfl | h0
  · simp
  · rw [rate_same hc h1 h2 h0]; exact ⟨rfl, rfl⟩

/-! ### Autocorrelation -/

theorem foldl_max_resampled (k : ℕ) : ∀ (l : List ℕ) (a : ℕ), (resampled k l).foldl Nat.max (2 ^ k * a) = 2 ^ k * l.foldl Nat.max a
  | [], _ => rfl
  | x :: l, a => by
    show (resampled k l).foldl Nat.max (Nat.max (2 ^ k * a) (2 ^ k * x)) = 2 ^ k * l.foldl Nat.max (Nat.max a x)
    rw [← foldl_max_resampled k l]
    congr 1
    exact (Nat.mul_max_mul_left _ _ _)

theorem beatSignal_resampled (k : ℕ) (l : List ℕ) (hop len : ℕ) : beatSignal (resampled k l) (2 ^ k * hop) len = beatSignal l hop len := by
  unfold beatSignal resampled
  refine List.map_congr_left fun i _ => ?_
  rw [List.any_map]
  simp only [Function.comp_def, Nat.mul_div_mul_left _ _ (Nat.two_pow_pos k)]

theorem foldl_max_lt {b : ℕ} : ∀ {l : List ℕ} {a : ℕ}, a < b → (∀ x ∈ l, x < b) → l.foldl Nat.max a < b
  | [], _, h, _ => h
  | x :: l, a, h, hl => foldl_max_lt (l := l) (Nat.max_lt.2 ⟨h, hl x (by simp)⟩) fun y hy => hl y (by simp [hy])

/-- **C135 (autocorrelation estimator).** The same BPM candidates with the same confidences in the same order. -/
theorem C135_autocorr (ifft : List F32 → ℕ → F32) (onsets : List ℕ) (k sr hop : ℕ) (minB maxB : F32)
    (hs : 2 ^ k * sr ≤ 2 ^ 52) (hh : 2 ^ k * hop ≤ 2 ^ 52) (hmin : OrdinaryLevel minB) (hmax : OrdinaryLevel maxB)
    (ho : ∀ o ∈ onsets, o < 2 ^ 30) :
    estAutocorr ifft (resampled k onsets) (2 ^ k * sr) (2 ^ k * hop) minB maxB = estAutocorr ifft onsets sr hop minB maxB := by
  have hkp := pow2_pos (k : ℤ)
  have p0 := Nat.two_pow_pos k
  unfold estAutocorr
  have e1 : resampled k onsets = [] ↔ onsets = [] := by unfold resampled; exact List.map_eq_nil_iff
  have e2 : (resampled k onsets).length = onsets.length := by unfold resampled; exact List.length_map _
  have e3 : (resampled k onsets).foldl Nat.max 0 = 2 ^ k * onsets.foldl Nat.max 0 := foldl_max_resampled k onsets 0
  simp only [e1, e2, e3, Nat.mul_eq_zero, p0.ne', false_or, Nat.mul_div_mul_left _ _ p0, beatSignal_resampled]
  by_cases h1 : onsets = []
  · rw [if_pos h1, if_pos h1]
  rw [if_neg h1, if_neg h1]
  by_cases h2 : sr = 0
  · rw [if_pos h2, if_pos h2]
  rw [if_neg h2, if_neg h2]
  by_cases h3 : hop = 0
  · rw [if_pos h3, if_pos h3]
  rw [if_neg h3, if_neg h3]
  by_cases h4 : minB ≤ 0 ∨ maxB ≤ 0 ∨ maxB ≤ minB
  · rw [if_pos h4, if_pos h4]
  rw [if_neg h4, if_neg h4]
  by_cases h5 : onsets.length < 2
  · rw [if_pos h5, if_pos h5]
  rw [if_neg h5, if_neg h5]
  by_cases h6 : onsets.foldl Nat.max 0 / hop + 1 < 2
  · rw [if_pos h6, if_pos h6]
  rw [if_neg h6, if_neg h6]
  have h4a : ¬ minB ≤ 0 := fun h => h4 (.inl h)
  have h4b : ¬ maxB ≤ 0 := fun h => h4 (.inr (.inl h))
  have m0 : 0 < minB := F32.lt_of_not_le (by decide +kernel) (ordinary_ne_nan hmin) h4a
  have x0 : 0 < maxB := F32.lt_of_not_le (by decide +kernel) (ordinary_ne_nan hmax) h4b
  have hop0 : 0 < hop := Nat.pos_of_ne_zero h3
  have hM := minute_vol hs
  have hH := ofNat_vol (e := 52) (by norm_num) hh
  have q : ∀ {b : F32} {lo hi : ℤ}, 0 < b → Vol 0 lo hi b b → -126 ≤ lo → lo ≤ 127 → -100 ≤ hi → hi ≤ 60 →
      60 * F32.ofNat (2 ^ k * sr) / (b * F32.ofNat (2 ^ k * hop)) = 60 * F32.ofNat sr / (b * F32.ofNat hop) := by
    intro b lo hi b0 hb l1 l2 l3 l4
    have hD := hb.mul hH (by omega) (by omega) (by omega) (by omega)
    rw [Nat.zero_add] at hD
    refine gain_quotient hkp hM.gain hD.gain ?_
    obtain ⟨v, hv, hw, e, e', v0, vl, vh⟩ := hD
    rw [e, zero_def, fin_lt_fin]
    rcases vl with rfl | vl
    · exfalso
      obtain ⟨u, hu, hu', rfl, -, u0, ul, -⟩ := hb
      obtain ⟨w, hw2, hw', ew, -, w0, wl, -⟩ := hH
      rw [ew, mul_fin] at e
      have u1 : 0 < u := by rw [zero_def] at b0; exact fin_lt_fin.1 b0
      have w1 : pow2 0 ≤ w := by
        rcases wl with rfl | wl
        · have := ofNat_pos hop0; rw [ew, zero_def, fin_lt_fin] at this; exact absurd this (_root_.lt_irrefl _)
        · exact wl
      have hul : pow2 lo ≤ u := ul.resolve_left u1.ne'
      have h8 : rnd (pow2 lo) ≤ rnd (u * w) := rnd_mono (by
        rw [show pow2 0 = 1 by rw [pow2_eq]; norm_num] at w1
        nlinarith)
      rw [e, rnd_val (pow2_grid (by omega) (by omega)), fin_le_fin] at h8
      exact absurd h8 (not_le.2 (pow2_pos _))
    · exact _root_.lt_of_lt_of_le (pow2_pos _) vl
  rw [q m0 (ordinary_const hmin m0) (by norm_num) (by norm_num) (by norm_num) (by norm_num),
    q x0 (ordinary_const hmax x0) (by norm_num) (by norm_num) (by norm_num) (by norm_num)]
  generalize hacf : autocorr ifft (beatSignal onsets hop (onsets.foldl Nat.max 0 / hop + 1)) = acf
  generalize (F32.ceil (60 * F32.ofNat sr / (maxB * F32.ofNat hop))).toUsize = lagMin
  generalize (F32.floor (60 * F32.ofNat sr / (minB * F32.ofNat hop))).toUsize = lagMax
  split_ifs with h7
  · rfl
  have hlen : acf.length ≤ 2 ^ 30 := by
    rw [← hacf]
    unfold autocorr beatSignal
    simp only [List.length_map, List.length_range]
    have := foldl_max_lt (b := 2 ^ 30) (a := 0) (by norm_num) ho
    have := Nat.div_le_self (onsets.foldl Nat.max 0) hop
    omega
  push Not at h7
  rw [slice_ok (by omega) (by omega)]
  simp only [R.ok_bind]
  obtain ⟨ps, hps, hloc⟩ := acfPeaks_spec (s := (acf.drop lagMin).take (lagMax + 1 - lagMin)) (off := lagMin) (by
    rw [List.length_take, List.length_drop]; omega)
  rw [hps]
  simp only [R.ok_bind]
  congr 2
  unfold acfCands
  refine List.filterMap_congr fun p hp => ?_
  obtain ⟨i, hi, rfl⟩ := hloc p hp
  have hi1 : 1 ≤ i ∧ i + 1 < ((acf.drop lagMin).take (lagMax + 1 - lagMin)).length := ⟨hi.1, hi.2.1⟩
  have hi2 := hi1.2
  rw [List.length_take, List.length_drop] at hi2
  have hv : Vol 0 0 30 (F32.ofNat (i + lagMin)) (F32.ofNat (i + lagMin)) := by
    have := ofNat_vol (k := 0) (n := i + lagMin) (e := 30) (by norm_num) (by omega)
    rwa [pow_zero, one_mul] at this
  dsimp only
  rw [q (ofNat_pos (by omega)) hv (by norm_num) (by norm_num) (by norm_num) (by norm_num)]

/-! ### Consensus -/

def Tagged.resample (k : ℕ) (o : Tagged) : Tagged := { o with sample := 2 ^ k * o.sample }

theorem tagAll_resampled (k : ℕ) (inp : Input) (w : ℕ → F32) :
    tagAll (resampledInput k inp) w = (tagAll inp w).map (Tagged.resample k) := by
  unfold tagAll resampledInput resampled Tagged.resample
  simp [List.map_append, Function.comp_def]

theorem near_resampled {k tol tol' a b : ℕ} (ht : tol' / 2 ^ k = tol) (ha : 2 ^ k * a < 2 ^ 31) (hb : 2 ^ k * b < 2 ^ 31) :
    near tol' (2 ^ k * a) (2 ^ k * b) = near tol a b := by
  have p0 := Nat.two_pow_pos k
  have ha' : a ≤ 2 ^ k * a := Nat.le_mul_of_pos_left _ p0
  have hb' : b ≤ 2 ^ k * b := Nat.le_mul_of_pos_left _ p0
  unfold near
  dsimp only
  rw [asI32_small ha, asI32_small hb, asI32_small (n := a) (by omega), asI32_small (n := b) (by omega),
    if_neg (by omega), if_neg (by omega)]
  have e : (((2 ^ k * a : ℕ) : ℤ) - ((2 ^ k * b : ℕ) : ℤ)).natAbs = ((a : ℤ) - b).natAbs * 2 ^ k := by
    push_cast
    rw [← mul_sub, Int.natAbs_mul, Nat.mul_comm, Int.natAbs_pow]; rfl
  rw [e, ← ht]
  congr 1
  exact decide_eq_decide.2 (Nat.le_div_iff_mul_le p0).symm

section
variable {k tol tol' : ℕ}

theorem hits_resampled (ht : tol' / 2 ^ k = tol) {o : Tagged} (ho : 2 ^ k * o.sample < 2 ^ 31) : ∀ {c : List Tagged},
    (∀ e ∈ c, 2 ^ k * e.sample < 2 ^ 31) → hits tol' (Tagged.resample k o) (c.map (Tagged.resample k)) = hits tol o c
  | [], _ => rfl
  | e :: es, h => by
    rw [List.map_cons, hits, hits, hits_resampled ht ho fun e' he => h e' (by simp [he])]
    show (near tol' (2 ^ k * o.sample) (2 ^ k * e.sample) >>= _) = _
    rw [near_resampled ht ho (h e (by simp))]

theorem addTo_resampled (ht : tol' / 2 ^ k = tol) {o : Tagged} (ho : 2 ^ k * o.sample < 2 ^ 31) : ∀ {cs : List (List Tagged)},
    (∀ c ∈ cs, ∀ e ∈ c, 2 ^ k * e.sample < 2 ^ 31) →
    addTo tol' (Tagged.resample k o) (cs.map (List.map (Tagged.resample k))) = (addTo tol o cs).map (List.map (List.map (Tagged.resample k)))
  | [], _ => rfl
  | c :: cs, h => by
    rw [List.map_cons, addTo, addTo, hits_resampled ht ho (h c (by simp)), addTo_resampled ht ho fun c' hc => h c' (by simp [hc])]
    cases hits tol o c with
    | error e => rfl
    | ok b =>
      cases b
      · cases addTo tol o cs <;> simp [Except.map]
      · simp [Except.map]

theorem clusterFrom_resampled (ht : tol' / 2 ^ k = tol) : ∀ {os : List Tagged} {cs : List (List Tagged)},
    (∀ o ∈ os, 2 ^ k * o.sample < 2 ^ 31) → (∀ c ∈ cs, ∀ e ∈ c, 2 ^ k * e.sample < 2 ^ 31) →
    clusterFrom tol' (os.map (Tagged.resample k)) (cs.map (List.map (Tagged.resample k))) =
      (clusterFrom tol os cs).map (List.map (List.map (Tagged.resample k)))
  | [], _, _, _ => rfl
  | o :: os, cs, ho, hc => by
    rw [List.map_cons, clusterFrom, clusterFrom, addTo_resampled ht (ho o (by simp)) hc]
    cases h1 : addTo tol o cs with
    | error e => rfl
    | ok cs' =>
      simp only [Except.map, R.ok_bind]
      refine clusterFrom_resampled ht (fun o' h => ho o' (by simp [h])) fun c hcc e he => ?_
      rcases addTo_mem h1 c hcc e he with rfl | ⟨c1, h4, h5⟩
      · exact ho _ (by simp)
      · exact hc c1 h4 e h5

end

theorem sameOnset_of (k : ℕ) (w : ℕ → F32) (sr sr' : ℕ) (c : List Tagged) (hc : c ≠ []) :
    SameOnset k (candidateOf w sr c) (candidateOf w sr' (c.map (Tagged.resample k))) := by
  have p0 := Nat.two_pow_pos k
  have n0 : 0 < c.length := List.length_pos_of_ne_nil hc
  have es : ((c.map (Tagged.resample k)).map Tagged.sample).sum = 2 ^ k * (c.map Tagged.sample).sum := by
    clear hc n0
    induction c with
    | nil => rfl
    | cons e es ih =>
      simp only [List.map_cons, List.sum_cons, ih, Nat.mul_add]; rfl
  unfold SameOnset candidateOf
  dsimp only
  rw [es, List.length_map, List.foldl_map]
  refine ⟨rfl, ?_, ?_, ?_⟩
  · simp only [List.any_map]; rfl
  · exact Nat.mul_div_le_mul_div_assoc _ _ _
  · rw [Nat.div_lt_iff_lt_mul n0, mul_assoc]
    exact Nat.mul_lt_mul_of_pos_left (Nat.lt_mul_of_div_lt (Nat.lt_succ_self _) n0) p0

/-- the tolerance in samples -/
theorem tolerance_resampled {k t sr : ℕ} (h : 2 ^ k * sr ≤ 2 ^ 40) (ht0 : 0 < t) (ht : t ≤ 2 ^ 20) :
    (F32.ofNat t / 1000 * F32.ofNat (2 ^ k * sr)).toUsize / 2 ^ k = (F32.ofNat t / 1000 * F32.ofNat sr).toUsize := by
  have hT : Vol 0 (-10) 20 (F32.ofNat t / 1000) (F32.ofNat t / 1000) := by
    have h1 := ofNat_vol (k := 0) (n := t) (e := 20) (by norm_num) (by omega)
    rw [pow_zero, one_mul] at h1
    have := h1.div_small (n := 1000) (b := 10) (by norm_num) (by norm_num) (by norm_num) (by norm_num) (by norm_num) (by norm_num) (by norm_num)
    exact this
  have hV := hT.mul (ofNat_vol (e := 40) (by norm_num) h) (by norm_num) (by norm_num) (by norm_num) (by norm_num)
  rw [Nat.zero_add] at hV
  obtain ⟨v, hv, hw, e, e', v0, -, vh⟩ := hV
  rw [e, e']
  have p1 : (1 : ℚ) ≤ pow2 k := one_le_pow2 k
  have b60 : pow2 (20 + ((40 : ℕ) : ℤ)) = ((2 ^ 60 : ℕ) : ℚ) := by rw [pow2_eq]; norm_num
  rw [b60] at vh
  have hp : (0 : ℚ) ≤ pow2 k * v := _root_.mul_nonneg (pow2_pos _).le v0
  have f1 : ⌊pow2 k * v⌋.toNat ≤ 2 ^ 60 := by
    rw [Int.floor_toNat]; exact Nat.floor_le_of_le vh
  have f2 : ⌊v⌋.toNat ≤ 2 ^ 60 := by
    rw [Int.floor_toNat]; exact Nat.floor_le_of_le (_root_.le_trans (le_mul_of_one_le_left v0 p1) vh)
  have hu : 2 ^ 60 ≤ usizeMax := by unfold usizeMax; norm_num
  show min ⌊pow2 k * v⌋.toNat usizeMax / 2 ^ k = min ⌊v⌋.toNat usizeMax
  rw [Nat.min_eq_left (f1.trans hu), Nat.min_eq_left (f2.trans hu), Int.floor_toNat, Int.floor_toNat]
  have h1 := Nat.floor_le v0
  have h2 := Nat.lt_floor_add_one v
  have ek : pow2 k = ((2 ^ k : ℕ) : ℚ) := by rw [pow2_nat]; push_cast; rfl
  have k0 := pow2_pos (k : ℤ)
  refine Nat.div_eq_of_lt_le (Nat.le_floor ?_) ((Nat.floor_lt hp).2 ?_)
  · rw [Nat.cast_mul, ← ek]; nlinarith
  · rw [Nat.cast_mul, ← ek, Nat.cast_add, Nat.cast_one]; nlinarith

theorem sortDesc_forall₂ {α : Type} {f g : α → Candidate} {r : Candidate → Candidate → Prop} (l : List α)
    (h : ∀ a ∈ l, r (f a) (g a)) (hc : ∀ a ∈ l, (g a).confidence = (f a).confidence) :
    List.Forall₂ r (sortDesc Candidate.confidence (l.map f)) (sortDesc Candidate.confidence (l.map g)) := by
  unfold sortDesc
  rw [rsort_map (le := fun a b => decide (¬ (f a).confidence < (f b).confidence)) f (· ∈ l) (fun _ _ _ _ => rfl) l fun _ h => h,
    rsort_map (le := fun a b => decide (¬ (f a).confidence < (f b).confidence)) g (· ∈ l) (fun a b ha hb => by rw [hc a ha, hc b hb]) l
      fun _ h => h]
  rw [List.forall₂_map_left_iff, List.forall₂_map_right_iff, List.forall₂_same]
  intro a ha
  rw [mem_rsort] at ha
  exact h a ha

theorem addTo_nonempty {tol : ℕ} {o : Tagged} : ∀ {cs cs' : List (List Tagged)}, addTo tol o cs = .ok cs' →
    (∀ c ∈ cs, c ≠ []) → ∀ c ∈ cs', c ≠ []
  | [], cs', h, _ => by cases h; simp
  | c :: cs, cs', h, hc => by
    obtain ⟨b, h2, h⟩ := R.bind_eq_ok.1 h
    cases b
    · simp only [Bool.false_eq_true, if_false] at h
      obtain ⟨r, h3, h⟩ := R.bind_eq_ok.1 h
      cases h
      intro d hd
      rcases List.mem_cons.1 hd with rfl | hd
      · exact hc _ (by simp)
      · exact addTo_nonempty h3 (fun c' h => hc c' (by simp [h])) d hd
    · simp only [if_true] at h
      cases h
      intro d hd
      rcases List.mem_cons.1 hd with rfl | hd
      · simp
      · exact hc d (by simp [hd])

/-- clusters are not empty -/
theorem clusterFrom_nonempty {tol : ℕ} : ∀ {os : List Tagged} {cs cs' : List (List Tagged)}, clusterFrom tol os cs = .ok cs' →
    (∀ c ∈ cs, c ≠ []) → ∀ c ∈ cs', c ≠ []
  | [], cs, cs', h, hc => by cases h; exact hc
  | o :: os, cs, cs', h, hc => by
    obtain ⟨cs1, h1, h⟩ := R.bind_eq_ok.1 h
    exact clusterFrom_nonempty h (addTo_nonempty h1 hc)

/-- **C135 (consensus).** The vote on the resampled onsets reports the same onsets in the same order, each inside the same
coarse sample, with the same confidence and the same number of votes. -/
theorem C135_consensus (inp : Input) (w : ℕ → F32) (k t sr : ℕ) (l : List Candidate) (hs : 2 ^ k * sr ≤ 2 ^ 40) (ht : t ≤ 2 ^ 20)
    (ho : ∀ o ∈ inp.energyFlux ++ inp.spectralFlux ++ inp.hfc ++ inp.hpss, 2 ^ k * o < 2 ^ 31)
    (h : voteOnsets inp w t sr = .ok l) :
    ∃ l', voteOnsets (resampledInput k inp) w t (2 ^ k * sr) = .ok l' ∧ List.Forall₂ (SameOnset k) l l' := by
  have p0 := Nat.two_pow_pos k
  unfold voteOnsets at h ⊢
  split_ifs at h with h1 h2 h3
  rw [if_neg (by simp [h1]), if_neg h2, if_neg h3]
  dsimp only at h ⊢
  rw [tagAll_resampled]
  by_cases h4 : tagAll inp w = []
  · rw [if_pos h4] at h; cases h
    rw [h4, List.map_nil, if_pos rfl]
    exact ⟨[], rfl, .nil⟩
  rw [if_neg h4] at h
  rw [if_neg (by simpa using h4)]
  obtain ⟨cs, hc, h⟩ := R.bind_eq_ok.1 h
  cases h
  have hmem : ∀ o ∈ tagAll inp w, 2 ^ k * o.sample < 2 ^ 31 := by
    intro o hm
    refine ho _ ?_
    unfold tagAll at hm
    simp only [List.mem_append, List.mem_map] at hm ⊢
    rcases hm with ((⟨s, hs, rfl⟩ | ⟨s, hs, rfl⟩) | ⟨s, hs, rfl⟩) | ⟨s, hs, rfl⟩ <;> simp [hs]
  rw [rsort_map (le := fun a b => decide (a.sample ≤ b.sample)) (Tagged.resample k) (fun _ => True) (fun a b _ _ => by
    show decide (2 ^ k * a.sample ≤ 2 ^ k * b.sample) = _
    exact decide_eq_decide.2 (Nat.mul_le_mul_left_iff p0)) _ fun _ _ => trivial]
  have := clusterFrom_resampled (tolerance_resampled (t := t) hs (Nat.pos_of_ne_zero h2) ht)
    (os := rsort (fun a b => decide (a.sample ≤ b.sample)) (tagAll inp w)) (cs := [])
    (fun o hm => hmem o (mem_rsort.1 hm)) (by simp)
  rw [List.map_nil, hc] at this
  rw [this]
  refine ⟨_, rfl, ?_⟩
  rw [List.map_map]
  have hne := clusterFrom_nonempty hc (by simp)
  exact sortDesc_forall₂ cs (fun c hcc => sameOnset_of k w sr _ c (hne c hcc)) fun c hcc => (sameOnset_of k w sr _ c (hne c hcc)).1

/-! ### The comb filterbank -/

/-- **C135 is violated by the comb filterbank.** It picks the onset nearest to a beat by distances truncated to whole samples,
so of two onsets at nearly the same distance it may test the farther one, and which one depends on the sample rate: the best
tempo of the three onsets below is 119 BPM at 22.05 kHz and 118 BPM at 44.1 kHz. -/
theorem C135_violated : ∃ onsets : List ℕ,
    estComb 10 onsets 22050 118 119 1 = .ok [⟨119, 1⟩, ⟨118, 0.5⟩] ∧
    estComb 10 (resampled 1 onsets) 44100 118 119 1 = .ok [⟨118, 1⟩, ⟨119, 1⟩] :=
  ⟨[0, 10071, 12352], by decide +kernel, by decide +kernel⟩

/-! ### The hypotheses can be met -/

/-- 22.05 kHz with hops of 256 samples and 44.1 kHz with hops of 512 samples, tempos from 60 to 180 BPM -/
example : 2 ^ 1 * 22050 = 44100 ∧ 2 ^ 1 * 256 = 512 ∧ 2 ^ 1 * 22050 ≤ 2 ^ 24 ∧ OrdinaryLevel 60 ∧ OrdinaryLevel 180 ∧
    (∀ o ∈ [0, 11025, 22050, 33075], o < 2 ^ 30 ∧ 2 ^ 1 * o < 2 ^ 31) ∧
    resampled 1 [0, 11025, 22050, 33075] = [0, 22050, 44100, 66150] := by
  refine ⟨by norm_num, by norm_num, by norm_num, by unfold OrdinaryLevel; decide +kernel, by unfold OrdinaryLevel; decide +kernel, by decide, rfl⟩

/-- an onset found by two methods at 1 kHz and at 2 kHz: the centre of 1000 and 1003 is 1001, and that of 2000 and 2006 is 2003 -/
example : voteOnsets ⟨[1000], [1003], [], []⟩ (fun _ => 1) 50 1000 = .ok [⟨1001, rnd (1001 / 1000), 0.5, 2⟩] ∧
    voteOnsets (resampledInput 1 ⟨[1000], [1003], [], []⟩) (fun _ => 1) 50 2000 = .ok [⟨2003, rnd (2003 / 2000), 0.5, 2⟩] := by
  constructor <;> decide +kernel

/-- a tempogram that is not empty, the same at both rates -/
example : (match acTempogram 100 [1, 0, 0, 1, 0, 0, 1, 0, 0, 1] 600 100 60 180 20 with | .ok l => l.length | .error _ => 0) = 7 ∧
    3 * 600 ≤ 2 ^ 24 ∧ 3 * 100 ≤ 2 ^ 24 := by
  refine ⟨by decide +kernel, by norm_num, by norm_num⟩

end Verif.Props
