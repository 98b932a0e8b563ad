/-
Property theorems C15-C17: autocorrelation and comb filterbank tempo estimators
(src/features/period/{autocorrelation,comb_filter}.rs).
-/
import Verif.Lemmas.Estimators

namespace Verif.Props
open Verif Verif.Period Verif.F32

/-- Specification: the clipped autocorrelation value at lag `k`, from the inverse FFT of size `2^e`. -/
def AcfAt (ifft : List F32 → ℕ → F32) (sig : List F32) (e k : ℕ) : F32 :=
  F32.max (ifft sig k * (1 / F32.ofNat (2 ^ e))) 0

/-- Specification: `sig` flags exactly the frames that contain an onset. -/
def Flags (onsets : List ℕ) (hop : ℕ) (sig : List F32) : Prop :=
  (∀ o ∈ onsets, o / hop < sig.length) ∧ (∃ o ∈ onsets, o / hop + 1 = sig.length) ∧
  ∀ k v, sig[k]? = some v → ((∃ o ∈ onsets, o / hop = k) → v = 1) ∧ ((¬ ∃ o ∈ onsets, o / hop = k) → v = 0)

theorem flags_beatSignal {onsets : List ℕ} {hop : ℕ} (h : onsets ≠ []) :
    Flags onsets hop (beatSignal onsets hop (onsets.foldl Nat.max 0 / hop + 1)) := by
  have hlen : (beatSignal onsets hop (onsets.foldl Nat.max 0 / hop + 1)).length =
      onsets.foldl Nat.max 0 / hop + 1 := by simp [beatSignal]
  refine ⟨?_, ?_, ?_⟩
  · intro o ho
    rw [hlen]
    exact Nat.lt_succ_of_le (Nat.div_le_div_right ((foldl_max_ge onsets 0).2 o ho))
  · rw [hlen]
    rcases foldl_max_mem onsets 0 with h' | h'
    · obtain ⟨o, os, rfl⟩ := List.exists_cons_of_ne_nil h
      have := (foldl_max_ge (o :: os) 0).2 o (by simp)
      rw [h'] at this
      refine ⟨o, by simp, ?_⟩
      rw [h', Nat.le_zero.1 this]
    · exact ⟨_, h', rfl⟩
  · intro k v hv
    simp only [beatSignal, List.getElem?_map, Option.map_eq_some_iff] at hv
    obtain ⟨j, hj, rfl⟩ := hv
    obtain ⟨_, rfl⟩ := List.getElem?_eq_some_iff.1 hj
    simp only [List.getElem_range]
    constructor
    · rintro ⟨o, ho, e⟩
      rw [if_pos (by rw [List.any_eq_true]; exact ⟨o, ho, by simpa using e⟩)]
    · intro hn
      rw [if_neg]
      rw [List.any_eq_true]
      rintro ⟨o, ho, e⟩
      exact hn ⟨o, ho, by simpa using e⟩

/-- **C15.** `estimate_bpm_from_autocorrelation` rejects exactly the invalid arguments, reports a
processing error exactly when two or more onsets all fall in frame 0, never panics (recordings below
`2^31` frames), and otherwise every candidate has a BPM in `[min_bpm, max_bpm]` equal to
`60 * sample_rate / (lag * hop)` for a lag at which the autocorrelation of the onset flags has a strict
local maximum, a confidence in [0,1] equal to its value relative to the global maximum, and candidates are
sorted by non-increasing confidence; for every FFT behaviour. -/
theorem C15_autocorrelation (ifft : List F32 → ℕ → F32) (onsets : List ℕ) (sr hop : ℕ) (minB maxB : F32)
    (hlen : ∀ o ∈ onsets, o / hop + 1 < 2 ^ 31) :
    ((onsets = [] ∨ sr = 0 ∨ hop = 0 ∨ minB ≤ 0 ∨ maxB ≤ 0 ∨ maxB ≤ minB) →
      estAutocorr ifft onsets sr hop minB maxB = R.err .invalidInput) ∧
    (¬ (onsets = [] ∨ sr = 0 ∨ hop = 0 ∨ minB ≤ 0 ∨ maxB ≤ 0 ∨ maxB ≤ minB) →
      ((2 ≤ onsets.length ∧ ∀ o ∈ onsets, o / hop = 0) →
        estAutocorr ifft onsets sr hop minB maxB = R.err .processing) ∧
      (¬ (2 ≤ onsets.length ∧ ∀ o ∈ onsets, o / hop = 0) →
        ∃ cands sig e, estAutocorr ifft onsets sr hop minB maxB = .ok cands ∧ Flags onsets hop sig ∧
          (2 * sig.length ≤ 2 ^ e ∧ ∀ j < e, 2 ^ j < 2 * sig.length) ∧
          (∀ c ∈ cands, minB ≤ c.bpm ∧ c.bpm ≤ maxB ∧ 0 ≤ c.conf ∧ c.conf ≤ 1 ∧
            ∃ lag, 1 ≤ lag ∧ lag + 1 < sig.length ∧
              c.bpm = 60 * F32.ofNat sr / (F32.ofNat lag * F32.ofNat hop) ∧
              AcfAt ifft sig e (lag - 1) < AcfAt ifft sig e lag ∧ AcfAt ifft sig e (lag + 1) < AcfAt ifft sig e lag ∧
              ∃ M, (∀ k < sig.length, AcfAt ifft sig e k ≤ M) ∧ (∃ k < sig.length, AcfAt ifft sig e k = M) ∧
                (1e-10 < M → c.conf = F32.min (AcfAt ifft sig e lag / M) 1) ∧ (¬ 1e-10 < M → c.conf = 0)) ∧
          cands.Pairwise (fun a b => b.conf ≤ a.conf))) := by
  unfold estAutocorr
  constructor
  · rintro (h | h | h | h)
    · rw [if_pos h]
    · split_ifs <;> rfl
    · split_ifs <;> rfl
    · split_ifs <;> rfl
  · intro h
    push Not at h
    obtain ⟨h1, h2, h3, h4⟩ := h
    rw [if_neg h1, if_neg h2, if_neg h3, if_neg (by simp only [not_or]; exact h4)]
    dsimp only
    have hfl := flags_beatSignal (hop := hop) h1
    have hzero : onsets.foldl Nat.max 0 / hop + 1 < 2 ↔ ∀ o ∈ onsets, o / hop = 0 := by
      constructor
      · intro hl o ho
        have := Nat.div_le_div_right (c := hop) ((foldl_max_ge onsets 0).2 o ho)
        exact Nat.le_zero.1 (Nat.le_trans this (by omega))
      · intro hl
        obtain ⟨o, ho, e⟩ := hfl.2.1
        have := hl o ho
        have hlen' : (beatSignal onsets hop (onsets.foldl Nat.max 0 / hop + 1)).length =
          onsets.foldl Nat.max 0 / hop + 1 := by simp [beatSignal]
        omega
    constructor
    · rintro ⟨ha, hb⟩
      rw [if_neg (by omega), if_pos (hzero.2 hb)]
    · intro hn
      obtain ⟨om, hom, hsl⟩ := hfl.2.1
      have hslen : (beatSignal onsets hop (onsets.foldl Nat.max 0 / hop + 1)).length < 2 ^ 31 := by
        rw [← hsl]; exact hlen om hom
      obtain ⟨e, he, hee⟩ := nextPow2_spec
        (n := 2 * (beatSignal onsets hop (onsets.foldl Nat.max 0 / hop + 1)).length) (by omega)
      by_cases hl2 : onsets.length < 2
      · rw [if_pos hl2]
        exact ⟨[], _, e, rfl, hfl, hee, by simp, by simp⟩
      · rw [if_neg hl2, if_neg (fun hz => hn ⟨by omega, hzero.1 hz⟩)]
        clear hsl
        generalize beatSignal onsets hop (onsets.foldl Nat.max 0 / hop + 1) = sig at hfl hslen he hee
        generalize (F32.ceil (60 * F32.ofNat sr / (maxB * F32.ofNat hop))).toUsize = lo
        generalize (F32.floor (60 * F32.ofNat sr / (minB * F32.ofNat hop))).toUsize = hi
        split_ifs with hc
        · exact ⟨[], sig, e, rfl, hfl, hee, by simp, by simp⟩
        · rw [autocorr_length] at hc
          push Not at hc
          obtain ⟨hc1, hc2, hc3⟩ := hc
          rw [slice_ok (by omega) (by rw [autocorr_length]; omega)]
          simp only [R.ok_bind]
          have hsl : (((autocorr ifft sig).drop lo).take (hi + 1 - lo)).length = hi + 1 - lo := by
            rw [List.length_take, List.length_drop, autocorr_length]; omega
          have hat : ∀ i, i < hi + 1 - lo → at' (((autocorr ifft sig).drop lo).take (hi + 1 - lo)) i =
              AcfAt ifft sig e (i + lo) := by
            intro i hi'
            rw [at'_getElem (by omega)]
            simp only [List.getElem_take, List.getElem_drop, autocorr, List.getElem_map, List.getElem_range]
            rw [Nat.add_comm lo i, he]
            rfl
          obtain ⟨ps, eps, hps⟩ := acfPeaks_spec (s := ((autocorr ifft sig).drop lo).take (hi + 1 - lo))
            (off := lo) (by omega)
          rw [eps]
          simp only [R.ok_bind]
          have hmaxs := foldMax_spec (l := autocorr ifft sig) (a := 0) zero_ne_nan
          have hAmem : ∀ k < sig.length, AcfAt ifft sig e k ∈ autocorr ifft sig := fun k hk =>
            List.mem_map.2 ⟨k, List.mem_range.2 hk, by rw [he]; rfl⟩
          have hM : (∀ k < sig.length, AcfAt ifft sig e k ≤ F32.foldMax 0 (autocorr ifft sig)) ∧
              (∃ k < sig.length, AcfAt ifft sig e k = F32.foldMax 0 (autocorr ifft sig)) := by
            have h1 : ∀ k < sig.length, AcfAt ifft sig e k ≤ F32.foldMax 0 (autocorr ifft sig) := fun k hk =>
              hmaxs.2.2.1 _ (hAmem k hk) (ne_nan_right (le_max_right zero_ne_nan))
            refine ⟨h1, ?_⟩
            rcases hmaxs.2.2.2 with h0 | h0
            · refine ⟨0, by omega, le_antisymm (h1 0 (by omega)) ?_⟩
              rw [h0]; exact le_max_right zero_ne_nan
            · obtain ⟨k, hk, e'⟩ := List.mem_map.1 h0
              rw [he] at e'
              exact ⟨k, List.mem_range.1 hk, e'⟩
          have hmem : ∀ c ∈ acfCands (autocorr ifft sig) sr hop minB maxB ps,
              minB ≤ c.bpm ∧ c.bpm ≤ maxB ∧ 0 ≤ c.conf ∧ c.conf ≤ 1 ∧
              ∃ lag, 1 ≤ lag ∧ lag + 1 < sig.length ∧
                c.bpm = 60 * F32.ofNat sr / (F32.ofNat lag * F32.ofNat hop) ∧
                AcfAt ifft sig e (lag - 1) < AcfAt ifft sig e lag ∧ AcfAt ifft sig e (lag + 1) < AcfAt ifft sig e lag ∧
                ∃ M, (∀ k < sig.length, AcfAt ifft sig e k ≤ M) ∧ (∃ k < sig.length, AcfAt ifft sig e k = M) ∧
                  (1e-10 < M → c.conf = F32.min (AcfAt ifft sig e lag / M) 1) ∧ (¬ 1e-10 < M → c.conf = 0) := by
            intro c hc
            simp only [acfCands, List.mem_filterMap] at hc
            obtain ⟨p, hp, hc⟩ := hc
            by_cases hr : minB ≤ 60 * F32.ofNat sr / (F32.ofNat p.1 * F32.ofNat hop) ∧
                60 * F32.ofNat sr / (F32.ofNat p.1 * F32.ofNat hop) ≤ maxB
            swap
            · rw [if_neg hr] at hc; simp at hc
            rw [if_pos hr] at hc
            obtain rfl := Option.some.inj hc
            obtain ⟨i, ⟨hi1, hi2, hi3, hi4⟩, rfl⟩ := hps p hp
            rw [hsl] at hi2
            have hval : at' (((autocorr ifft sig).drop lo).take (hi + 1 - lo)) i = AcfAt ifft sig e (i + lo) :=
              hat i (by omega)
            refine ⟨hr.1, hr.2, ?_, ?_, i + lo, by omega, by omega, rfl, ?_, ?_, ?_⟩
            · dsimp only
              split_ifs with hE
              · rw [hval]
                by_cases hn : AcfAt ifft sig e (i + lo) / F32.foldMax 0 (autocorr ifft sig) = nan
                · rw [hn]; unfold F32.min; simp; exact zero_le_one
                · apply le_min _ zero_le_one
                  exact div_nonneg (le_max_right zero_ne_nan) hmaxs.1 hn
              · exact le_refl zero_ne_nan
            · dsimp only
              split_ifs with hE
              · exact min_le_right one_ne_nan
              · exact zero_le_one
            · rw [hval, hat (i - 1) (by omega)] at hi3
              rw [show i + lo - 1 = i - 1 + lo by omega]; exact hi3
            · rw [hval, hat (i + 1) (by omega)] at hi4
              rw [show i + lo + 1 = i + 1 + lo by omega]; exact hi4
            · refine ⟨_, hM.1, hM.2, ?_, ?_⟩
              · intro hE; change EPS < _ at hE; dsimp only; rw [if_pos hE, hval]
              · intro hE; change ¬ EPS < _ at hE; dsimp only; rw [if_neg hE]
          refine ⟨_, sig, e, rfl, hfl, hee, ?_, ?_⟩
          · intro c hc; rw [mem_sortDesc] at hc; exact hmem c hc
          · exact sortDesc_pairwise (fun c hc => ne_nan_right (hmem c hc).2.2.1)

/-- **C16 (partial).** Full claim: the search terminates for every resolution > 0.  Proved for finite
arguments with a resolution of at least `2^-22` of the upper end: any fuel `N` with
`N * (res/2) > max - min` is enough, and more fuel does not change the result. -/
theorem C16_comb_terminates_partial (onsets : List ℕ) (sr : ℕ) (minB maxB res : F32) (v L r : ℚ) (hv hL hr)
    (hmin : minB = fin v hv) (hlim : maxB + 1e-10 = fin L hL) (hres : res = fin r hr)
    (hbig : L ≤ 2 ^ 22 * r) (N : ℕ) (hN : L - v < N * (r / 2)) :
    estComb N onsets sr minB maxB res ≠ R.outOfFuel ∧
    ∀ k, estComb (N + k) onsets sr minB maxB res = estComb N onsets sr minB maxB res := by
  unfold estComb
  by_cases h1 : onsets = []
  · rw [if_pos h1]; exact ⟨by simp [R.err, R.outOfFuel], fun k => by rw [if_pos h1]⟩
  rw [if_neg h1]
  by_cases h2 : sr = 0
  · rw [if_pos h2]; exact ⟨by simp [R.err, R.outOfFuel], fun k => by rw [if_neg h1, if_pos h2]⟩
  rw [if_neg h2]
  by_cases h3 : minB ≤ 0 ∨ maxB ≤ 0 ∨ maxB ≤ minB
  · rw [if_pos h3]; exact ⟨by simp [R.err, R.outOfFuel], fun k => by rw [if_neg h1, if_neg h2, if_pos h3]⟩
  rw [if_neg h3]
  by_cases h4 : res ≤ 0
  · rw [if_pos h4]
    exact ⟨by simp [R.err, R.outOfFuel], fun k => by rw [if_neg h1, if_neg h2, if_neg h3, if_pos h4]⟩
  rw [if_neg h4]
  by_cases h5 : onsets.length < 2
  · rw [if_pos h5]
    exact ⟨by simp [R.outOfFuel], fun k => by rw [if_neg h1, if_neg h2, if_neg h3, if_neg h4, if_pos h5]⟩
  rw [if_neg h5]
  have hr0 : 0 < r := by
    rw [hres, zero_def, fin_le_fin] at h4; exact not_le.1 h4
  have hv0 : 0 ≤ v := by
    have : ¬ minB ≤ 0 := fun h => h3 (.inl h)
    rw [hmin, zero_def, fin_le_fin] at this; exact _root_.le_of_lt (not_le.1 this)
  obtain ⟨ha, hb⟩ := combLoop_fuel (onsets := sortNat onsets) (sr := sr) hlim hres hr0 hbig N v hv hv0 hN
  rw [← hmin] at ha hb
  refine ⟨?_, ?_⟩
  · cases hc : combLoop (sortNat onsets) sr maxB res N minB with
    | error e => rw [hc] at ha; simpa using ha
    | ok cs => simp [R.outOfFuel]
  · intro k
    rw [if_neg h1, if_neg h2, if_neg h3, if_neg h4, if_neg h5, hb k]

/-- **C16 is violated by the code**: with BPM range [60, 61] and resolution 1e-6 (accepted: it is
positive) the search never ends, since `60 + 1e-6 = 60` in `f32`. -/
theorem C16_violated (fuel : ℕ) : estComb fuel [0, 44100] 44100 60 61 1e-6 = R.outOfFuel := by
  have h1 : ((60 : F32) ≤ 61 + EPS) := by decide +kernel
  have h2 : (60 : F32) + 1e-6 = 60 := by decide +kernel
  have h3 : score (sortNat [0, 44100]) 44100 60 (F32.clamp (0.1 * (120 / 60)) 0.05 0.15) = .ok 1 := by
    decide +kernel
  have hl : ∀ fuel, combLoop (sortNat [0, 44100]) 44100 61 1e-6 fuel 60 = R.outOfFuel := by
    intro fuel
    induction fuel with
    | zero => unfold combLoop; rw [if_pos h1]
    | succ n ih => unfold combLoop; rw [if_pos h1]; dsimp only; rw [h3, h2, ih]; rfl
  unfold estComb
  rw [if_neg (by simp), if_neg (by simp), if_neg (by decide +kernel), if_neg (by decide +kernel),
    if_neg (by simp), hl]
  rfl

/-- **C17.** Whenever the comb filterbank search returns candidates, each BPM lies in
`[min_bpm, max_bpm + 1e-10]`, each confidence in `[0.1, 1]`, they are ranked by non-increasing confidence,
and the best confidence is exactly 1. -/
theorem C17_comb (fuel : ℕ) (onsets : List ℕ) (sr : ℕ) (minB maxB res : F32) (cands : List Cand)
    (h : estComb fuel onsets sr minB maxB res = .ok cands) :
    (∀ c ∈ cands, minB ≤ c.bpm ∧ c.bpm ≤ maxB + 1e-10 ∧ 0.1 ≤ c.conf ∧ c.conf ≤ 1) ∧
    cands.Pairwise (fun a b => b.conf ≤ a.conf) ∧ (∀ c, cands.head? = some c → c.conf = 1) := by
  unfold estComb at h
  split_ifs at h with h1 h2 h3 h4 h5
  · rw [← Except.ok.inj h]; simp
  · obtain ⟨cs, hcs, h⟩ := R.bind_eq_ok.1 h
    obtain rfl := Except.ok.inj h
    by_cases hn : minB = nan
    · have : cs = [] := by
        cases fuel <;> (unfold combLoop at hcs; rw [hn, if_neg (by simp)] at hcs; exact (Except.ok.inj hcs).symm)
      subst this
      have : combFinish [] = [] := by decide +kernel
      rw [this]; simp
    · have h0 : 0 ≤ minB := by
        push Not at h3
        exact le_of_lt (lt_of_not_le zero_ne_nan hn h3.1)
      have hmem := combLoop_mem h0 h4 fuel minB cs (.inl (le_refl hn)) hcs
      obtain ⟨ha, hb, hc⟩ := combFinish_spec (fun c hc => (hmem c hc).2.2)
      refine ⟨?_, hb, hc⟩
      intro c hc'
      obtain ⟨⟨x, hx, e1, _⟩, h6, h7⟩ := ha c hc'
      rw [e1]
      exact ⟨(hmem x hx).1, (hmem x hx).2.1, h6, h7⟩

/-- **C17, coarse-to-fine search**: same guarantees for `coarse_to_fine_search`. -/
theorem C17_coarse_to_fine (fuel : ℕ) (onsets : List ℕ) (sr : ℕ) (minB maxB range : F32) (cands : List Cand)
    (hmax : maxB ≠ nan) (h : coarseToFine fuel onsets sr minB maxB range = .ok cands) :
    (∀ c ∈ cands, minB ≤ c.bpm ∧ c.bpm ≤ maxB + 1e-10 ∧ 0.1 ≤ c.conf ∧ c.conf ≤ 1) ∧
    cands.Pairwise (fun a b => b.conf ≤ a.conf) ∧ (∀ c, cands.head? = some c → c.conf = 1) := by
  unfold coarseToFine at h
  obtain ⟨coarse, hco, h⟩ := R.bind_eq_ok.1 h
  obtain ⟨c1, c2, c3⟩ := C17_comb fuel onsets sr minB maxB 2 coarse hco
  cases coarse with
  | nil => rw [← Except.ok.inj h]; simp
  | cons best rest =>
    dsimp only at h
    obtain ⟨fine, hfi, h⟩ := R.bind_eq_ok.1 h
    obtain ⟨f1, f2, f3⟩ := C17_comb fuel onsets sr _ _ 0.5 fine hfi
    obtain rfl := Except.ok.inj h
    have hmin : minB ≠ nan := ne_nan_left (c1 best (by simp)).1
    have hadd : ∀ x : F32, x ≤ maxB → x + 1e-10 ≤ maxB + 1e-10 := by
      intro x hx
      have hf : (1e-10 : F32).isFinite = true := by decide +kernel
      apply add_le_add hx (le_refl (ne_nan_of_isFinite hf))
      · rw [F32.add_comm]; exact add_fin_ne_nan hf (ne_nan_left hx)
      · rw [F32.add_comm]; exact add_fin_ne_nan hf hmax
    by_cases he : fine = []
    · rw [if_pos he]
      have : sortDesc Cand.conf (best :: rest) = best :: rest := rsort_eq_self (by
        refine c2.imp ?_
        intro a b hab
        simpa using not_lt_of_le hab)
      rw [this]
      exact ⟨c1, c2, c3⟩
    · rw [if_neg he]
      have : sortDesc Cand.conf fine = fine := rsort_eq_self (by
        refine f2.imp ?_
        intro a b hab
        simpa using not_lt_of_le hab)
      rw [this]
      refine ⟨?_, f2, f3⟩
      intro c hc
      obtain ⟨g1, g2, g3⟩ := f1 c hc
      refine ⟨le_trans (le_max_right hmin) g1, le_trans g2 (hadd _ (min_le_right hmax)), g3⟩

/-! Non-vacuity -/
example : (estComb 200 [0, 22050, 44100, 66150] 44100 100 140 20).map (List.map (fun c => c.bpm)) =
    .ok [120, 100, 140] := by decide +kernel
example : ∃ v L r hv hL hr, (40 : F32) = fin v hv ∧ (240 : F32) + 1e-10 = fin L hL ∧ (1 : F32) = fin r hr ∧
    L ≤ 2 ^ 22 * r ∧ L - v < (401 : ℕ) * (r / 2) := by
  refine ⟨40, 240, 1, by decide +kernel, by decide +kernel, by decide +kernel, by decide +kernel,
    by decide +kernel, by decide +kernel, by norm_num, by norm_num⟩
example : (estAutocorr (fun _ k => if k % 4 = 0 then 8 else 0) [0, 2048, 4096, 6144] 8192 512 100 300).map
    (List.map (fun c => (c.bpm, c.conf))) = .ok [(120, 1)] := by decide +kernel

end Verif.Props
