/-
Property theorem C14: peak picking (src/features/period/peak_picking.rs).
-/
import Verif.Lemmas.Peaks

namespace Verif.Props
open Verif Verif.Period Verif.F32

/-- Specification: sample `i` of the signal has value `v`, is strictly above both neighbours that exist,
and reaches the threshold. -/
def IsPeak (s : List F32) (thr : F32) (i : ℕ) (v : F32) : Prop :=
  s[i]? = some v ∧ thr ≤ v ∧ (∀ w, 0 < i → s[i - 1]? = some w → w < v) ∧ (∀ w, s[i + 1]? = some w → w < v)

/-- Specification: distance of two indices. -/
def Dist (i j : ℕ) : ℕ := (i - j) + (j - i)

/-- Specification of a good list of peaks. -/
structure GoodPeaks (s : List F32) (thr : F32) (d : ℕ) (ps : List (ℕ × F32)) : Prop where
  genuine : ∀ p ∈ ps, IsPeak s thr p.1 p.2
  distinct : (ps.map Prod.fst).Nodup
  ranked : ps.Pairwise (fun a b => b.2 ≤ a.2)
  spaced : ∀ a ∈ ps, ∀ b ∈ ps, a ≠ b → d ≤ Dist a.1 b.1
  /-- a peak is missing only because of a peak at least as high nearby -/
  maximal : ∀ i v, IsPeak s thr i v → (i, v) ∉ ps → ∃ q ∈ ps, Dist i q.1 < d ∧ v ≤ q.2

theorem gap_eq_Dist (a b : ℕ) : gap a b = Dist a b := by unfold gap Dist; split <;> omega

theorem isPeak_iff {s : List F32} {thr : F32} (h : 3 ≤ s.length) {i : ℕ} {v : F32} :
    IsPeak s thr i v ↔ (i, v) ∈ rawPeaks s thr := by
  rw [mem_rawPeaks h]
  unfold IsPeak
  constructor
  · rintro ⟨h1, h2, h3, h4⟩
    obtain ⟨hi, hv⟩ := List.getElem?_eq_some_iff.1 h1
    refine ⟨hi, ?_, ?_, ?_, h2⟩
    · dsimp only; rw [at'_getElem hi, hv]
    · intro h0
      dsimp only at h0 ⊢
      rw [at'_getElem (by omega)]
      exact h3 _ h0 (List.getElem?_eq_getElem _)
    · intro h0
      dsimp only at h0 ⊢
      rw [at'_getElem h0]
      exact h4 _ (List.getElem?_eq_getElem _)
  · rintro ⟨h1, h2, h3, h4, h5⟩
    dsimp only at *
    rw [at'_getElem h1] at h2
    refine ⟨List.getElem?_eq_some_iff.2 ⟨h1, h2.symm⟩, h5, ?_, ?_⟩
    · intro w h0 hw
      obtain ⟨hi, hv⟩ := List.getElem?_eq_some_iff.1 hw
      have := h3 h0
      rwa [at'_getElem hi, hv] at this
    · intro w hw
      obtain ⟨hi, hv⟩ := List.getElem?_eq_some_iff.1 hw
      have := h4 hi
      rwa [at'_getElem hi, hv] at this

/-- **C14 (partial).** Full claim: for every minimum distance.  Proved for every signal with fewer than
`2^31` samples (NaN allowed: a NaN sample is simply never a peak) and every minimum distance below `2^31`;
the search never panics; short (under 3 samples) or essentially zero signals give no peaks; otherwise the
result is a good list of peaks for the effective threshold (relative to the maximum if the threshold is
strictly between 0 and 1).  For minimum distances of `2^31` and more the claim is false: `C14_violated`. -/
theorem C14_find_peaks_partial (s : List F32) (threshold : F32) (d : ℕ) (hs : s.length < 2 ^ 31)
    (hd : d < 2 ^ 31) :
    ∃ ps, findPeaks s threshold d = .ok ps ∧
      ((s.length < 3 ∨ F32.foldMax 0 s < 1e-10) → ps = []) ∧
      (3 ≤ s.length → 1e-10 ≤ F32.foldMax 0 s →
        (0 < threshold → threshold < 1 → GoodPeaks s (F32.foldMax 0 s * threshold) d ps) ∧
        (¬ (0 < threshold ∧ threshold < 1) → GoodPeaks s threshold d ps)) := by
  have key : ∀ thr, 3 ≤ s.length → ∃ ps, (if 0 < d ∧ 1 < (rawPeaks s thr).length then
      greedy d (sortDesc Prod.snd (rawPeaks s thr)) [] >>= fun ps => (pure (sortDesc Prod.snd ps) : R _)
      else .ok (rawPeaks s thr) >>= fun ps => (pure (sortDesc Prod.snd ps) : R _)) = .ok ps ∧ GoodPeaks s thr d ps := by
    intro thr h3
    have hnan : ∀ p ∈ rawPeaks s thr, p.2 ≠ nan := fun p hp => rawPeaks_ne_nan h3 hp
    by_cases hc : 0 < d ∧ 1 < (rawPeaks s thr).length
    · rw [if_pos hc]
      obtain ⟨out, e, _, hsub, hsp, hmax⟩ := greedy_spec hd (sortDesc Prod.snd (rawPeaks s thr)) []
        (fun p hp => by
          rw [mem_sortDesc, mem_rawPeaks h3] at hp
          omega) (by simp) (by simpa using sortDesc_pairwise hnan) (by simp)
      rw [e]
      have hsub' : ∀ p ∈ out, p ∈ rawPeaks s thr := fun p hp => by
        have := hsub.subset hp; simpa using this
      refine ⟨_, rfl, ⟨?_, ?_, ?_, ?_, ?_⟩⟩
      · intro p hp; rw [mem_sortDesc] at hp
        exact (isPeak_iff h3).2 (hsub' p hp)
      · rw [((sortDesc_perm out).map _).nodup_iff]
        have : out.Sublist (sortDesc Prod.snd (rawPeaks s thr)) := by simpa using hsub
        refine (this.map Prod.fst).nodup ?_
        rw [((sortDesc_perm (rawPeaks s thr)).map _).nodup_iff]
        exact rawPeaks_nodup h3
      · exact sortDesc_pairwise (fun p hp => hnan p (hsub' p hp))
      · intro a ha b hb hab
        rw [mem_sortDesc] at ha hb
        have hsym : ∀ x ∈ out, ∀ y ∈ out, x ≠ y → d ≤ gap x.1 y.1 := by
          have : Std.Symm (fun x y : ℕ × F32 => x ≠ y → d ≤ gap x.1 y.1) := ⟨fun x y h hne => by
            have e : gap y.1 x.1 = gap x.1 y.1 := by unfold gap; split_ifs <;> omega
            rw [e]; exact h hne.symm⟩
          apply List.Pairwise.forall_of_forall (R := fun x y : ℕ × F32 => x ≠ y → d ≤ gap x.1 y.1)
          · intro x _ hne; exact absurd rfl hne
          · refine hsp.imp ?_; intro a b h _; exact h
        rw [← gap_eq_Dist]
        exact hsym a ha b hb hab
      · intro i v hp hn
        rw [mem_sortDesc] at hn
        rcases hmax (i, v) (by rw [mem_sortDesc]; exact (isPeak_iff h3).1 hp) with h | ⟨q, hq, h1, h2⟩
        · exact absurd h hn
        · exact ⟨q, by rw [mem_sortDesc]; exact hq, by rw [← gap_eq_Dist]; exact h1, h2⟩
    · rw [if_neg hc]
      refine ⟨_, rfl, ⟨?_, ?_, sortDesc_pairwise hnan, ?_, ?_⟩⟩
      · intro p hp; rw [mem_sortDesc] at hp; exact (isPeak_iff h3).2 hp
      · rw [((sortDesc_perm (rawPeaks s thr)).map _).nodup_iff]; exact rawPeaks_nodup h3
      · intro a ha b hb hab
        rw [mem_sortDesc] at ha hb
        by_cases hd0 : d = 0
        · omega
        · have hl : (rawPeaks s thr).length ≤ 1 := by omega
          exfalso; apply hab
          match hL : rawPeaks s thr, hl with
          | [], _ => rw [hL] at ha; simp at ha
          | [x], _ => rw [hL] at ha hb; simp at ha hb; rw [ha, hb]
          | x :: y :: l, hl => simp at hl
      · intro i v hp hn
        rw [mem_sortDesc] at hn
        exact absurd ((isPeak_iff h3).1 hp) hn
  unfold findPeaks
  by_cases h3 : s.length < 3
  · rw [if_pos h3]
    exact ⟨[], rfl, fun _ => rfl, fun h => by omega⟩
  · rw [if_neg h3]
    dsimp only
    by_cases he : F32.foldMax 0 s < EPS
    · rw [if_pos he]
      exact ⟨[], rfl, fun _ => rfl, fun _ h => absurd he (not_lt_of_le h)⟩
    · rw [if_neg he]
      have hor : ¬ (s.length < 3 ∨ F32.foldMax 0 s < 1e-10) := by
        rintro (h | h)
        · exact h3 h
        · exact he h
      by_cases ht : 0 < threshold ∧ threshold < 1 ∧ 0 < F32.foldMax 0 s
      · rw [if_pos ht]
        obtain ⟨ps, e, hg⟩ := key (F32.foldMax 0 s * threshold) (by omega)
        exact ⟨ps, e, fun h => absurd h hor, fun _ _ => ⟨fun _ _ => hg, fun h => absurd ⟨ht.1, ht.2.1⟩ h⟩⟩
      · rw [if_neg ht]
        obtain ⟨ps, e, hg⟩ := key threshold (by omega)
        refine ⟨ps, e, fun h => absurd h hor, fun _ h10 => ⟨fun h1 h2 => ?_, fun _ => hg⟩⟩
        exact absurd ⟨h1, h2, lt_of_lt_of_le (by decide +kernel) h10⟩ ht

/-- **C14 is violated by the code** for a minimum distance of `2^32` (`as i32` turns it into 0): both
peaks, two samples apart, are returned. -/
theorem C14_violated : findPeaks [1, 0, 1] 0.5 (2 ^ 32) = .ok [(0, 1), (2, 1)] := by decide +kernel

/-! Non-vacuity: the documentation example. -/
example : findPeaks [0.0, 0.5, 1.0, 0.7, 0.3, 0.9, 0.2] 0.5 2 = .ok [(2, 1), (5, 0.9)] := by decide +kernel
example : findPeaks [0.0, 0.5, 1.0, 0.7, 0.3, 0.9, 0.2] 0.5 4 = .ok [(2, 1)] := by decide +kernel

end Verif.Props
