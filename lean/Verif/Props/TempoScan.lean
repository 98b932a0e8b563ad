/-
Tempogram scans (C23): src/features/period/{tempogram_autocorr,tempogram_fft}.rs.
-/
import Verif.Model.Tempogram
import Verif.Lemmas.Estimators
import Verif.Props.NoveltyMore

namespace Verif.Props
open Verif F32 Tempogram

/-! ### Specification -/

/-- the mean of `nov[i] * nov[i + lag]` over the `i` for which both exist, 0 if there are none -/
def lagMean (nov : List F32) (lag : ℕ) : F32 :=
  if lag < nov.length then
    F32.sum ((List.range (nov.length - lag)).map (fun i => nov.getD i 0 * nov.getD (i + lag) 0)) /
      F32.ofNat (nov.length - lag)
  else 0

/-- the frames per beat at a tempo, rounded down -/
def lagAt (sr hop : ℕ) (bpm : F32) : ℕ := ((F32.ofNat sr / F32.ofNat hop) / (bpm / 60)).toUsize

/-- the `k`-th tempo of the scan -/
def gridBpm (minB res : F32) (k : ℕ) : F32 := (· + res)^[k] minB

/-- parameters that the functions accept -/
def ScanOk (nov : List F32) (sr hop : ℕ) (minB maxB : F32) : Prop :=
  nov ≠ [] ∧ 0 < sr ∧ 0 < hop ∧ ¬ minB ≤ 0 ∧ ¬ maxB ≤ minB

/-! ### The autocorrelation scan -/

theorem acStrength_eq (nov : List F32) (sr hop : ℕ) (bpm : F32) :
    acStrength nov (F32.ofNat sr / F32.ofNat hop) bpm = if usizeMax < lagAt sr hop bpm + (nov.length - 1) then R.panic
      else .ok (lagMean nov (lagAt sr hop bpm)) := by
  unfold acStrength lagAt lagMean
  generalize ((F32.ofNat sr / F32.ofNat hop) / (bpm / 60)).toUsize = lag
  dsimp only
  split_ifs with h h1 h2 h2
  · rfl
  · have : (List.range nov.length).filter (fun i => decide (i + lag < nov.length)) = List.range (nov.length - lag) := by
      have e : List.range nov.length = List.range (nov.length - lag) ++ (List.range lag).map (nov.length - lag + ·) := by
        rw [← List.range_add]; congr 1; omega
      rw [e, List.filter_append, List.filter_eq_self.2 (by
        intro i hi; rw [List.mem_range] at hi; simp; omega), List.filter_eq_nil_iff.2 (by
        intro i hi; obtain ⟨j, hj, rfl⟩ := List.mem_map.1 hi; simp; omega), List.append_nil]
    rw [this, List.length_map, List.length_range]
    rfl
  · exfalso
    rw [List.length_map] at h1
    obtain ⟨i, hi⟩ := List.exists_mem_of_length_pos h1
    have := (List.mem_filter.1 hi).2
    simp at this
    omega
  · exfalso
    apply h1
    rw [List.length_map]
    refine List.length_pos_of_mem (a := 0) (List.mem_filter.2 ⟨List.mem_range.2 (by omega), ?_⟩)
    simpa using h2
  · rfl

/-- the scan, spelled out: it stops at the first tempo beyond the limit -/
theorem acLoop_eq {nov : List F32} {sr hop : ℕ} {maxB res : F32} (fuel : ℕ) :
    ∀ {b : F32} {t}, acLoop nov (F32.ofNat sr / F32.ofNat hop) maxB res fuel b = .ok t →
      ∃ n ≤ fuel, t = (List.range n).map (fun k => (gridBpm b res k, lagMean nov (lagAt sr hop (gridBpm b res k)))) ∧
        (∀ k < n, gridBpm b res k ≤ maxB) ∧ ¬ gridBpm b res n ≤ maxB := by
  induction fuel with
  | zero =>
    intro b t h
    unfold acLoop at h
    split_ifs at h with hb
    · cases h; exact ⟨0, le_refl _, rfl, by simp, hb⟩
  | succ fuel ih =>
    intro b t h
    unfold acLoop at h
    split_ifs at h with hb
    · rw [acStrength_eq] at h
      split_ifs at h with hp
      · exact absurd h (by rw [show (R.panic : R F32) = .error .panic from rfl, R.error_bind]; simp)
      · rw [R.ok_bind] at h
        obtain ⟨rest, hr, h⟩ := R.bind_eq_ok.1 h
        cases h
        obtain ⟨n, hn, rfl, h1, h2⟩ := ih hr
        refine ⟨n + 1, by omega, ?_, ?_, ?_⟩
        · rw [List.range_succ_eq_map, List.map_cons, List.map_map]
          rfl
        · intro k hk
          rcases k with _ | k
          · exact hb
          · exact h1 k (by omega)
        · exact h2
    · cases h; exact ⟨0, Nat.zero_le _, rfl, by simp, hb⟩

/-- a positive (or NaN) increment never goes down -/
theorem grid_ge {b res x : F32} (hr : ¬ res ≤ 0) {k : ℕ} (hb : x ≤ b) (h : ∃ m, gridBpm b res k ≤ m) : x ≤ gridBpm b res k := by
  obtain ⟨m, h⟩ := h
  induction k generalizing b with
  | zero => exact hb
  | succ k ih =>
    have e : gridBpm b res (k + 1) = gridBpm (b + res) res k := rfl
    rw [e] at h ⊢
    have nanfix : ∀ k : ℕ, gridBpm nan res k = nan := by
      intro k
      induction k with
      | zero => rfl
      | succ k ih => show gridBpm (nan + res) res k = nan; simpa using ih
    refine ih ?_ h
    rcases hres : res with _ | (_ | _) | ⟨r, hrg⟩
    · exfalso
      rw [hres] at h
      simp only [F32.add_nan] at h
      have := nanfix k
      rw [hres] at this
      rw [this] at h
      simp at h
    · rcases b with _ | (_ | _) | ⟨v, hv⟩
      · exact absurd hb (by rcases x with _ | (_ | _) | ⟨v, hv⟩ <;> simp)
      · exact F32.le_trans hb (by decide)
      · exfalso
        rw [hres, show (inf true + inf false : F32) = nan from rfl] at h
        have := nanfix k
        rw [hres] at this
        rw [this] at h
        simp at h
      · rw [show (fin v hv + inf false : F32) = inf false from rfl]
        rcases x with _ | (_ | _) | ⟨x, hx⟩ <;> simp at hb ⊢
    · rw [hres, zero_def] at hr; exact absurd hr (by simp)
    · rw [hres, zero_def, fin_le_fin, not_le] at hr
      rcases b with _ | (_ | _) | ⟨v, hv⟩
      · exact absurd hb (by rcases x with _ | (_ | _) | ⟨v, hv⟩ <;> simp)
      · exact hb
      · exact hb
      · rw [add_fin]
        exact F32.le_trans hb (fin_le_rnd (by linarith))

theorem ranked_of {l : List (F32 × F32)} (h : ∀ e ∈ l, e.2 ≠ nan) : (sortDesc Prod.snd l).Pairwise (fun a b => b.2 ≤ a.2) :=
  sortDesc_pairwise h

/-- **C23 (autocorrelation scan)**: whatever is returned consists of exactly the scan tempos `min, min + res, …` up to the
last one not beyond `max`, each once, within `[min_bpm, max_bpm]`, with the mean lagged product of the curve at its beat
length, and is sorted by non-increasing strength unless a strength is NaN. -/
theorem C23_autocorr (fuel : ℕ) (nov : List F32) (sr hop : ℕ) (minB maxB res : F32) (t : List (F32 × F32))
    (h : acTempogram fuel nov sr hop minB maxB res = .ok t) :
    (∃ n, t.Perm ((List.range n).map (fun k => (gridBpm minB res k, lagMean nov (lagAt sr hop (gridBpm minB res k))))) ∧
      (∀ k < n, gridBpm minB res k ≤ maxB) ∧ ¬ gridBpm minB res n ≤ maxB) ∧
    (∀ e ∈ t, minB ≤ e.1 ∧ e.1 ≤ maxB) ∧ ((∀ e ∈ t, e.2 ≠ nan) → t.Pairwise (fun a b => b.2 ≤ a.2)) := by
  unfold acTempogram at h
  split_ifs at h with h1 h2 h3 h4 h5
  obtain ⟨l, hl, h⟩ := R.bind_eq_ok.1 h
  cases h
  obtain ⟨n, -, rfl, hn1, hn2⟩ := acLoop_eq fuel hl
  refine ⟨⟨n, sortDesc_perm _, hn1, hn2⟩, fun e he => ?_, fun hnan => ranked_of fun e he => hnan e (mem_sortDesc.2 he)⟩
  rw [mem_sortDesc] at he
  obtain ⟨k, hk, rfl⟩ := List.mem_map.1 he
  have hk' := hn1 k (List.mem_range.1 hk)
  refine ⟨grid_ge h5 (F32.le_refl ?_) ⟨_, hk'⟩, hk'⟩
  have h0 := hn1 0 (by have := List.mem_range.1 hk; omega)
  exact ne_nan_left h0

/-- it rejects invalid parameters -/
theorem C23_rejects (M : Libm) (fft : List F32 → ℕ → F32 × F32) (fuel : ℕ) (nov : List F32) (sr hop : ℕ) (minB maxB res : F32) :
    (¬ ScanOk nov sr hop minB maxB → acTempogram fuel nov sr hop minB maxB res = R.err .invalidInput ∧
      fftTempogram M fft nov sr hop minB maxB = R.err .invalidInput) ∧
    (res ≤ 0 → acTempogram fuel nov sr hop minB maxB res = R.err .invalidInput) := by
  constructor
  · intro h
    unfold acTempogram fftTempogram ScanOk at *
    by_cases h1 : nov = []
    · rw [if_pos h1, if_pos h1]; exact ⟨rfl, rfl⟩
    by_cases h2 : sr = 0
    · rw [if_neg h1, if_pos h2, if_neg h1, if_pos h2]; exact ⟨rfl, rfl⟩
    by_cases h3 : hop = 0
    · rw [if_neg h1, if_neg h2, if_pos h3, if_neg h1, if_neg h2, if_pos h3]; exact ⟨rfl, rfl⟩
    have h4 : minB ≤ 0 ∨ maxB ≤ minB := by
      by_contra hc
      push Not at hc
      exact h ⟨h1, by omega, by omega, hc.1, hc.2⟩
    rw [if_neg h1, if_neg h2, if_neg h3, if_pos h4, if_neg h1, if_neg h2, if_neg h3, if_pos h4]
    exact ⟨rfl, rfl⟩
  · intro h
    unfold acTempogram
    split_ifs <;> rfl

/-- **C23 (FFT scan)**: accepted parameters always give a result, whose entries are the spectrum bins whose tempo lies in
`[min_bpm, max_bpm]`, sorted by non-increasing power unless a power is NaN. -/
theorem C23_fft (M : Libm) (fft : List F32 → ℕ → F32 × F32) (nov : List F32) (sr hop : ℕ) (minB maxB : F32)
    (h : ScanOk nov sr hop minB maxB) :
    ∃ t, fftTempogram M fft nov sr hop minB maxB = .ok t ∧ (∀ e ∈ t, minB ≤ e.1 ∧ e.1 ≤ maxB) ∧
      (∀ e ∈ t, ∃ k ≤ Period.nextPow2 nov.length / 2,
        e.1 = F32.ofNat k * ((F32.ofNat sr / F32.ofNat hop) / F32.ofNat (Period.nextPow2 nov.length)) * 60) ∧
      ((∀ e ∈ t, e.2 ≠ nan) → t.Pairwise (fun a b => b.2 ≤ a.2)) := by
  obtain ⟨h1, h2, h3, h4, h5⟩ := h
  unfold fftTempogram
  rw [if_neg h1, if_neg (by omega), if_neg (by omega), if_neg (by tauto)]
  refine ⟨_, rfl, fun e he => ?_, fun e he => ?_, fun hnan => ranked_of fun e he => hnan e (mem_sortDesc.2 he)⟩
  · rw [mem_sortDesc] at he
    have := (List.mem_filter.1 he).2
    simpa using this
  · rw [mem_sortDesc] at he
    obtain ⟨k, hk, rfl⟩ := List.mem_map.1 (List.mem_filter.1 he).1
    have := Nat.lt_of_lt_of_le (List.mem_range.1 hk) (Nat.min_le_left _ _)
    exact ⟨k, by omega, rfl⟩

example : ScanOk [1, 0, 1, 0] 4 1 30 240 := by unfold ScanOk; decide +kernel

/-- **C23 (FFT scan, strengths)**: the entries are exactly the pairs of the tempo and the power `re² + im²` of the bins up to
half the transform size whose tempo is in the range, each once, whatever their order. -/
theorem C23_power (M : Libm) (fft : List F32 → ℕ → F32 × F32) (nov : List F32) (sr hop : ℕ) (minB maxB : F32)
    (hl : nov.length ≤ 2 ^ 63) (t : List (F32 × F32)) (h : fftTempogram M fft nov sr hop minB maxB = .ok t) :
    ∃ x : List F32, x.length = Period.nextPow2 nov.length ∧ (∀ y ∈ x.drop nov.length, y = 0) ∧
      t.Perm (((List.range (Nat.min (Period.nextPow2 nov.length / 2 + 1) (Period.nextPow2 nov.length))).map (fun k =>
        (F32.ofNat k * ((F32.ofNat sr / F32.ofNat hop) / F32.ofNat (Period.nextPow2 nov.length)) * 60,
          (fft x k).1 * (fft x k).1 + (fft x k).2 * (fft x k).2))).filter
        (fun p => decide (minB ≤ p.1) && decide (p.1 ≤ maxB))) := by
  unfold fftTempogram at h
  split_ifs at h
  cases h
  have hp : nov.length ≤ Period.nextPow2 nov.length := by
    obtain ⟨e, h1, h2, -⟩ := Period.nextPow2_spec hl
    rw [h1]; exact h2
  refine ⟨fftInput M nov, ?_, ?_, sortDesc_perm _⟩
  · unfold fftInput
    dsimp only
    rw [List.length_append, List.length_map, List.length_zipIdx, List.length_replicate]
    omega
  · unfold fftInput
    dsimp only
    intro y hy
    rw [List.drop_left' (by rw [List.length_map, List.length_zipIdx])] at hy
    exact List.eq_of_mem_replicate hy

example : ([1, 0, 1, 0] : List F32).length ≤ 2 ^ 63 ∧
    (match fftTempogram Libm.demo (fun x k => (x.getD k 0, 1)) [1, 0, 1, 0] 4 1 30 240 with
      | .ok t => decide (t.length = 2) | _ => false) = true := by decide +kernel

/-- **C23 (best of)**: the reported entry is the first of the tempogram, with a confidence in `[0,1]` unless its strength
is infinite. -/
theorem C23_best_partial (t : List (F32 × F32)) :
    (findBest t = none ↔ t = []) ∧ ∀ b, findBest t = some b → (b.bpm, b.strength) ∈ t.head? ∧
      (b.strength ≠ inf false → 0 ≤ b.conf ∧ b.conf ≤ 1) := by
  rcases t with _ | ⟨e, ts⟩
  · simp [findBest]
  · refine ⟨by simp [findBest], fun b hb => ?_⟩
    unfold findBest at hb
    cases hb
    refine ⟨rfl, fun hs => ?_⟩
    dsimp only at hs ⊢
    rcases ts with _ | ⟨s, ts⟩
    · dsimp only; exact ⟨by decide +kernel, by decide +kernel⟩
    · dsimp only
      split_ifs with h
      · have hp : (0 : F32) < e.2 := F32.lt_trans (by decide +kernel) h
        apply clamp01
        have h0 : 0 ≤ F32.max (e.2 - s.2) 0 := le_max_right zero_ne_nan
        rcases nonneg_cases (F32.le_of_lt hp) with e1 | ⟨v, hv, e1, v0⟩
        · exact absurd e1 hs
        · rw [e1] at hp ⊢
          rw [zero_def, fin_lt_fin] at hp
          rw [← e1]
          rcases nonneg_cases h0 with e2 | ⟨w, hw, e2, w0⟩
          · rw [e2, e1, inf_div_fin]; simp
          · rw [e2, e1, div_fin hp.ne']; exact rnd_ne_nan _
      · exact ⟨by decide +kernel, by decide +kernel⟩

example : findBest [(120, 0.5), (60, 0.25)] = some ⟨120, 0.5, 0.5⟩ := by decide +kernel

/-- **C23 is violated by infinite strengths**: the confidence is NaN.  (Powers and lagged products of very large curves
overflow.) -/
theorem C23_violated_conf : (findBest [(120, inf false), (60, 1)]).map Best.conf = some nan ∧
    acTempogram 10 [rnd (pow2 64), rnd (pow2 64), 0, 0] 1 1 30 60 30 = .ok [(60, inf false), (30, 0)] ∧
    (findBest [(60, inf false), (30, 0)]).map Best.conf = some nan := by decide +kernel

/-- sums of values in `[0,1]` saturate at `2^24` -/
theorem unit_sum_le {l : List F32} (h : ∀ x ∈ l, InUnit x) : F32.sum l ≤ 16777216 := by
  have hc : (16777216 : F32) = fin 16777216 (by decide +kernel) := by decide +kernel
  have key : ∀ (l : List F32) (a : F32), (∀ x ∈ l, InUnit x) → 0 ≤ a → a ≤ 16777216 → l.foldl (· + ·) a ≤ 16777216 := by
    intro l
    induction l with
    | nil => intro a _ _ h; exact h
    | cons x l ih =>
      intro a hx h0 h1
      refine ih (a + x) (fun y hy => hx y (List.mem_cons_of_mem _ hy)) (F32.add_nonneg h0 (hx x (by simp)).1) ?_
      obtain ⟨x0, x1⟩ := hx x (by simp)
      rw [hc] at h1 ⊢
      rw [zero_def] at h0 x0
      rw [one_def] at x1
      obtain ⟨v, hv, rfl, v0, v1⟩ := between_cases h0 h1
      obtain ⟨w, hw, rfl, w0, w1⟩ := between_cases x0 x1
      rw [add_fin]
      refine F32.le_trans (rnd_mono (show v + w ≤ 16777217 by linarith)) ?_
      decide +kernel
  exact key l 0 h (by decide +kernel) (by decide +kernel)

theorem unit_mul {a b : F32} (ha : InUnit a) (hb : InUnit b) : InUnit (a * b) := by
  obtain ⟨a0, a1⟩ := ha
  obtain ⟨b0, b1⟩ := hb
  rw [zero_def] at a0 b0
  rw [one_def] at a1 b1
  obtain ⟨v, hv, rfl, v0, v1⟩ := between_cases a0 a1
  obtain ⟨w, hw, rfl, w0, w1⟩ := between_cases b0 b1
  unfold InUnit
  rw [mul_fin, zero_def, one_def]
  exact ⟨fin_le_rnd (by positivity), rnd_le_fin (by nlinarith)⟩

theorem lagMean_range {nov : List F32} (h : ∀ x ∈ nov, InUnit x) (hn : nov.length ≤ 2 ^ 62) (lag : ℕ) :
    0 ≤ lagMean nov lag ∧ lagMean nov lag ≤ 16777216 := by
  unfold lagMean
  split_ifs with hl
  · have hu : ∀ x ∈ (List.range (nov.length - lag)).map (fun i => nov.getD i 0 * nov.getD (i + lag) 0), InUnit x := by
      intro x hx
      obtain ⟨i, hi, rfl⟩ := List.mem_map.1 hx
      rw [List.mem_range] at hi
      have hg : ∀ j < nov.length, InUnit (nov.getD j 0) := by
        intro j hj
        rw [List.getD_eq_getElem?_getD, List.getElem?_eq_getElem hj]
        exact h _ (List.getElem_mem hj)
      exact unit_mul (hg i (by omega)) (hg _ (by omega))
    have h1 := unit_sum_le hu
    have h0 := sum_nonneg (fun x hx => (hu x hx).1)
    have hc : (16777216 : F32) = fin 16777216 (by decide +kernel) := by decide +kernel
    rw [hc] at h1 ⊢
    generalize F32.sum ((List.range (nov.length - lag)).map (fun i => nov.getD i 0 * nov.getD (i + lag) 0)) = S at h0 h1 ⊢
    rw [zero_def] at h0
    obtain ⟨v, hv, e, v0, v1⟩ := between_cases h0 h1
    obtain ⟨w, hw, e2⟩ := isFinite_iff.1 (ofNat_finite (n := nov.length - lag) (by omega))
    have h3 := one_le_ofNat (n := nov.length - lag) (by omega)
    rw [e2, one_def, fin_le_fin] at h3
    rw [e, e2, div_fin (by linarith), zero_def]
    exact ⟨fin_le_rnd (by positivity), rnd_le_fin (by rw [div_le_iff₀ (by linarith)]; nlinarith)⟩
  · exact ⟨by decide +kernel, by decide +kernel⟩

/-- **C23 (ranking and confidence for the curves the library builds)**: with novelty values in `[0,1]` (C26) the result is
sorted by non-increasing strength and the best entry has a confidence in `[0,1]`. -/
theorem C23_ranked_unit (fuel : ℕ) (nov : List F32) (sr hop : ℕ) (minB maxB res : F32) (t : List (F32 × F32))
    (hu : ∀ x ∈ nov, InUnit x) (hn : nov.length ≤ 2 ^ 62) (h : acTempogram fuel nov sr hop minB maxB res = .ok t) :
    t.Pairwise (fun a b => b.2 ≤ a.2) ∧
    ∀ b, findBest t = some b → InUnit b.conf ∧ (b.bpm, b.strength) ∈ t ∧ ∀ e ∈ t, e.2 ≤ b.strength := by
  obtain ⟨⟨n, hp, -⟩, -, hs⟩ := C23_autocorr fuel nov sr hop minB maxB res t h
  have hr : ∀ e ∈ t, 0 ≤ e.2 ∧ e.2 ≤ 16777216 := by
    intro e he
    obtain ⟨k, -, rfl⟩ := List.mem_map.1 (hp.mem_iff.1 he)
    exact lagMean_range hu hn _
  have hs' := hs fun e he => ne_nan_left (hr e he).2
  refine ⟨hs', fun b hb => ?_⟩
  obtain ⟨h1, h2⟩ := (C23_best_partial t).2 b hb
  have hm : (b.bpm, b.strength) ∈ t := List.mem_of_mem_head? h1
  refine ⟨h2 ?_, hm, ?_⟩
  · intro hi
    have := (hr _ hm).2
    rw [hi] at this
    exact absurd (show inf false ≤ 16777216 from this) (by decide +kernel)
  · rcases t with _ | ⟨a, t⟩
    · simp at hm
    · have : a = (b.bpm, b.strength) := by simpa using h1
      subst this
      intro e he
      rcases List.mem_cons.1 he with rfl | he
      · exact F32.le_refl (ne_nan_left (hr _ hm).2)
      · exact (List.pairwise_cons.1 hs').1 e he

example : (∀ x ∈ ([1, 0, 1, 0, 1, 0] : List F32), InUnit x) ∧
    acTempogram 10 [1, 0, 1, 0, 1, 0] 4 1 60 240 60 = .ok [(60, 0.5), (120, 0.5), (180, 0), (240, 0)] := by
  unfold InUnit; decide +kernel

/-! ### Termination -/

theorem acStrength_ne_fuel (nov : List F32) (rate bpm : F32) : acStrength nov rate bpm ≠ R.outOfFuel := by
  unfold acStrength; dsimp only; split_ifs <;> simp [R.outOfFuel, R.panic]

theorem acLoop_fuel {nov : List F32} {rate maxB res : F32} {L r : ℚ} {hLg hr}
    (hlim : maxB = fin L hLg) (hres : res = fin r hr) (hr0 : 0 < r) (hL : L ≤ 2 ^ 22 * r) :
    ∀ (fuel : ℕ) (v : ℚ) (hv : OnGrid v ∧ |v| < pow2 128), 0 ≤ v → L - v < fuel * (r / 2) →
      acLoop nov rate maxB res fuel (fin v hv) ≠ R.outOfFuel ∧
      ∀ k, acLoop nov rate maxB res (fuel + k) (fin v hv) = acLoop nov rate maxB res fuel (fin v hv) := by
  have hinf : ∀ f, acLoop nov rate maxB res f (inf false) = .ok [] := by
    intro f
    cases f <;> (unfold acLoop; rw [hlim, if_neg (by simp)])
  intro fuel
  induction fuel with
  | zero =>
    intro v hv hv0 h
    have hn : ¬ (fin v hv ≤ maxB) := by
      rw [hlim, fin_le_fin]; simp at h; linarith
    refine ⟨?_, ?_⟩
    · unfold acLoop; rw [if_neg hn]; simp [R.outOfFuel]
    · intro k
      cases k with
      | zero => rfl
      | succ k =>
        rw [Nat.zero_add]
        unfold acLoop
        rw [if_neg hn, if_neg hn]
  | succ n ih =>
    intro v hv hv0 h
    by_cases hle : fin v hv ≤ maxB
    · have hvL : v ≤ L := by rw [hlim, fin_le_fin] at hle; exact hle
      have hstep : acLoop nov rate maxB res n (fin v hv + res) ≠ R.outOfFuel ∧
          ∀ k, acLoop nov rate maxB res (n + k) (fin v hv + res) = acLoop nov rate maxB res n (fin v hv + res) := by
        rw [hres]
        rcases Period.add_progress hv hr hv0 hr0 hvL hL with e | ⟨w, hw, e, hp⟩
        · rw [e, ← hres, hinf]
          refine ⟨by simp [R.outOfFuel], fun k => by rw [hinf]⟩
        · rw [e, ← hres]
          apply ih w hw (by linarith)
          push_cast at h
          linarith
      constructor
      · intro hc
        unfold acLoop at hc
        rw [if_pos hle] at hc
        cases hs : acStrength nov rate (fin v hv) with
        | error e =>
          rw [hs, R.error_bind] at hc
          exact acStrength_ne_fuel nov rate (fin v hv) (by rw [hs, R.outOfFuel]; injection hc with hc; rw [hc])
        | ok sc =>
          rw [hs, R.ok_bind] at hc
          cases hr' : acLoop nov rate maxB res n (fin v hv + res) with
          | error e =>
            rw [hr', R.error_bind] at hc
            exact hstep.1 (by rw [hr', R.outOfFuel]; injection hc with hc; rw [hc])
          | ok rest => rw [hr', R.ok_bind] at hc; cases hc
      · intro k
        rw [show n + 1 + k = (n + k) + 1 by omega]
        unfold acLoop
        rw [if_pos hle, if_pos hle, hstep.2 k]
    · refine ⟨?_, ?_⟩
      · unfold acLoop; rw [if_neg hle]; simp [R.outOfFuel]
      · intro k
        rw [show n + 1 + k = (n + k) + 1 by omega]
        unfold acLoop
        rw [if_neg hle, if_neg hle]

theorem toUsize_le {x : F32} {n : ℕ} {h'} (h : x ≤ fin (n : ℚ) h') : x.toUsize ≤ n := by
  rcases x with _ | (_ | _) | ⟨v, hv⟩
  · simp at h
  · simp at h
  · exact Nat.zero_le _
  · rw [fin_le_fin] at h
    refine le_trans (Nat.min_le_left _ _) ?_
    have : ⌊v⌋ ≤ (n : ℤ) := by
      have := Int.floor_le_floor h
      simpa using this
    omega

theorem lagAt_le {sr hop : ℕ} {b : F32} (hs : sr ≤ 2 ^ 32) (hh : 0 < hop) (hb : 1 ≤ b) : lagAt sr hop b ≤ 2 ^ 38 := by
  have g32 : OnGrid ((2 : ℚ) ^ 32) ∧ |(2 : ℚ) ^ 32| < pow2 128 := by decide +kernel
  have g38 : OnGrid (((2 ^ 38 : ℕ)) : ℚ) ∧ |(((2 ^ 38 : ℕ)) : ℚ)| < pow2 128 := by decide +kernel
  unfold lagAt
  apply toUsize_le (h' := g38)
  have h1 : F32.ofNat sr ≤ fin (2 ^ 32) g32 := by
    unfold F32.ofNat
    exact rnd_le_fin (by exact_mod_cast hs)
  have h2 := ofNat_nonneg sr
  have h3 := one_le_ofNat hh
  have h4 : 0 ≤ F32.ofNat sr / F32.ofNat hop ∧ F32.ofNat sr / F32.ofNat hop ≤ fin (2 ^ 32) g32 := by
    rw [zero_def] at h2
    obtain ⟨v, hv, e, v0, v1⟩ := between_cases h2 h1
    rw [e]
    rcases nonneg_cases (F32.le_trans (by decide +kernel) h3) with e1 | ⟨w, hw, e1, w0⟩
    · rw [e1, fin_div_inf, zero_def, fin_le_fin, fin_le_fin]; norm_num
    · rw [e1, one_def, fin_le_fin] at h3
      rw [e1, div_fin (by linarith)]
      exact ⟨rnd_nonneg (by positivity), rnd_le_fin (by rw [div_le_iff₀ (by linarith)]; nlinarith)⟩
  have h5 : fin (pow2 (-6)) (by decide +kernel) ≤ b / 60 := by
    rcases nonneg_cases (F32.le_trans (by decide +kernel) hb) with e1 | ⟨w, hw, e1, w0⟩
    · rw [e1]; decide +kernel
    · rw [e1, one_def, fin_le_fin] at hb
      have : (60 : F32) = fin 60 (by decide +kernel) := by decide +kernel
      rw [e1, this, div_fin (by norm_num)]
      refine fin_le_rnd ?_
      rw [pow2_eq, le_div_iff₀ (by norm_num)]
      norm_num
      linarith
  generalize F32.ofNat sr / F32.ofNat hop = r at h4
  generalize b / 60 = q at h5
  obtain ⟨v, hv, rfl, v0, v1⟩ := between_cases (zero_def ▸ h4.1) h4.2
  have hp : (0 : ℚ) < pow2 (-6) := pow2_pos _
  rcases nonneg_cases (F32.le_trans (by decide +kernel) h5) with rfl | ⟨w, hw, rfl, w0⟩
  · rw [fin_div_inf, zero_def, fin_le_fin]; positivity
  · rw [fin_le_fin] at h5
    rw [div_fin (by linarith)]
    refine rnd_le_fin ?_
    rw [div_le_iff₀ (by linarith)]
    have : pow2 (-6) = 1 / 2 ^ 6 := by rw [pow2_eq]; norm_num
    rw [this] at h5
    push_cast
    nlinarith

theorem acLoop_ne_panic {nov : List F32} {sr hop : ℕ} {maxB res : F32} (hs : sr ≤ 2 ^ 32) (hh : 0 < hop)
    (hn : nov.length ≤ 2 ^ 62) (hr : 0 ≤ res) (hf : res.isFinite = true) :
    ∀ (fuel : ℕ) (b : F32), 1 ≤ b → acLoop nov (F32.ofNat sr / F32.ofNat hop) maxB res fuel b = R.outOfFuel ∨
      ∃ t, acLoop nov (F32.ofNat sr / F32.ofNat hop) maxB res fuel b = .ok t := by
  intro fuel
  induction fuel with
  | zero =>
    intro b hb
    unfold acLoop
    split_ifs
    · exact Or.inl rfl
    · exact Or.inr ⟨_, rfl⟩
  | succ n ih =>
    intro b hb
    unfold acLoop
    split_ifs
    · have hl := lagAt_le hs hh hb
      rw [acStrength_eq, if_neg (by unfold usizeMax; omega), R.ok_bind]
      have hb' : 1 ≤ b + res := by
        obtain ⟨r, hrg, rfl⟩ := isFinite_iff.1 hf
        rw [zero_def, fin_le_fin] at hr
        rcases nonneg_cases (F32.le_trans (by decide +kernel) hb) with rfl | ⟨w, hw, rfl, w0⟩
        · exact hb
        · rw [one_def, fin_le_fin] at hb
          rw [one_def, add_fin]
          exact fin_le_rnd (by linarith)
      rcases ih (b + res) hb' with e | ⟨t, e⟩
      · left; rw [e]; rfl
      · right; rw [e]; exact ⟨_, rfl⟩
    · exact Or.inr ⟨_, rfl⟩

/-- **C23 (the scan ends)**, for a range that starts at 1 BPM or above, has a finite end of at most `2^22` steps and a
sample rate that fits 32 bits: the call returns a tempogram, after a number of iterations that depends on the range only.
What is missing: steps so small that `f32` addition absorbs them, see `C23_violated_hangs`. -/
theorem C23_terminates_partial (nov : List F32) (sr hop : ℕ) (minB maxB res : F32) (hok : ScanOk nov sr hop minB maxB)
    (hs : sr ≤ 2 ^ 32) (hn : nov.length ≤ 2 ^ 62) (hm : 1 ≤ minB) (hM : maxB.isFinite = true) (hres : 0 < res)
    (hf : res.isFinite = true) (hbig : maxB.val ≤ 2 ^ 22 * res.val) :
    ∃ N t, ∀ fuel, N ≤ fuel → acTempogram fuel nov sr hop minB maxB res = .ok t := by
  obtain ⟨h1, h2, h3, h4, h5⟩ := hok
  obtain ⟨L, hL, rfl⟩ := isFinite_iff.1 hM
  obtain ⟨r, hr, rfl⟩ := isFinite_iff.1 hf
  have hr0 : 0 < r := by rw [zero_def, fin_lt_fin] at hres; exact hres
  have hr1 : ¬ fin r hr ≤ 0 := by rw [zero_def, fin_le_fin]; linarith
  have key : ∃ N t, ∀ fuel, N ≤ fuel → acLoop nov (F32.ofNat sr / F32.ofNat hop) (fin L hL) (fin r hr) fuel minB = .ok t := by
    rcases nonneg_cases (F32.le_trans (by decide +kernel) hm) with rfl | ⟨v, hv, rfl, v0⟩
    · refine ⟨0, [], fun fuel _ => ?_⟩
      cases fuel <;> (unfold acLoop; rw [if_neg (by simp)])
    · obtain ⟨N, hN⟩ : ∃ N : ℕ, (L - v) / (r / 2) < N :=
        ⟨⌈(L - v) / (r / 2)⌉.toNat + 1, by
          have e1 := Int.le_ceil ((L - v) / (r / 2))
          have e2 : ((⌈(L - v) / (r / 2)⌉ : ℤ) : ℚ) ≤ ((⌈(L - v) / (r / 2)⌉.toNat : ℤ) : ℚ) := by
            exact_mod_cast Int.self_le_toNat _
          push_cast at e2 ⊢
          linarith⟩
      rw [div_lt_iff₀ (by linarith)] at hN
      obtain ⟨ha, hb⟩ := acLoop_fuel (nov := nov) (rate := F32.ofNat sr / F32.ofNat hop) (maxB := fin L hL) rfl rfl hr0
        hbig N v hv v0 hN
      rcases acLoop_ne_panic (nov := nov) (maxB := fin L hL) hs h3 hn (F32.le_of_lt hres) hf N (fin v hv) hm with e | ⟨t, e⟩
      · exact absurd e ha
      · refine ⟨N, t, fun fuel hfu => ?_⟩
        obtain ⟨k, rfl⟩ := Nat.exists_eq_add_of_le hfu
        rw [hb k, e]
  obtain ⟨N, t, key⟩ := key
  refine ⟨N, sortDesc Prod.snd t, fun fuel hfu => ?_⟩
  unfold acTempogram
  rw [if_neg h1, if_neg (by omega), if_neg (by omega), if_neg (by tauto), if_neg hr1, key fuel hfu, R.ok_bind]
  rfl

/-- the usual range: 40 to 240 BPM in steps of 0.5 -/
example : ScanOk [1, 0, 1, 0] 44100 512 40 240 ∧ (1 : F32) ≤ 40 ∧ (240 : F32).isFinite = true ∧ (0 : F32) < 0.5 ∧
    (0.5 : F32).isFinite = true ∧ (240 : F32).val ≤ 2 ^ 22 * (0.5 : F32).val := by unfold ScanOk; decide +kernel

/-- **C23 is violated by small steps**: whenever adding the step to the lowest tempo gives that tempo again, the scan never
ends (no amount of fuel is enough) unless it panics; with 1 to 40 BPM or more it does not panic. -/
theorem C23_violated_hangs (nov : List F32) (sr hop : ℕ) (minB maxB res : F32) (hok : ScanOk nov sr hop minB maxB)
    (hs : sr ≤ 2 ^ 32) (hn : nov.length ≤ 2 ^ 62) (hm : 1 ≤ minB) (hM : minB ≤ maxB) (hres : 0 < res)
    (habs : minB + res = minB) (fuel : ℕ) :
    acTempogram fuel nov sr hop minB maxB res = R.outOfFuel := by
  obtain ⟨h1, h2, h3, h4, h5⟩ := hok
  have key : ∀ fuel, acLoop nov (F32.ofNat sr / F32.ofNat hop) maxB res fuel minB = R.outOfFuel := by
    intro fuel
    induction fuel with
    | zero => unfold acLoop; rw [if_pos hM]
    | succ n ih =>
      have hl := lagAt_le hs h3 hm
      unfold acLoop
      rw [if_pos hM, acStrength_eq, if_neg (by unfold usizeMax; omega), R.ok_bind, habs, ih]
      rfl
  unfold acTempogram
  rw [if_neg h1, if_neg (by omega), if_neg (by omega), if_neg (by tauto), if_neg (fun h => not_lt_of_le h hres), key fuel]
  rfl

/-- 40 to 240 BPM in steps of a millionth of a beat per minute -/
example : ScanOk [1, 0, 1, 0] 44100 512 40 240 ∧ (40 : F32) + 1e-6 = 40 ∧ (0 : F32) < 1e-6 := by unfold ScanOk; decide +kernel

/-- **C23 is violated by tiny tempos**: accepted parameters whose beat length saturates `usize` panic (checked arithmetic). -/
theorem C23_violated_panics : ScanOk [1, 1] 44100 512 1e-20 1 ∧
    acTempogram 10 [1, 1] 44100 512 1e-20 1 1 = R.panic := by unfold ScanOk; decide +kernel

end Verif.Props
