/-
Helper lemmas for the onset detectors.
-/
import Verif.Model.Onset
import Verif.F32.More
import Verif.Lemmas.Silence

namespace Verif.Onset
open Verif Verif.F32

theorem at'_eq {v : List F32} {i : ℕ} (h : i < v.length) : at' v i = v[i] := by
  simp [at', h]

theorem at'_getElem? {v : List F32} {i : ℕ} (h : i < v.length) : v[i]? = some (at' v i) := by
  simp [at', h]

theorem getElem?_at' {v : List F32} {i : ℕ} {x : F32} (h : v[i]? = some x) : at' v i = x := by
  simp [at', h]

/-! ### Sorting NaN-free lists -/

theorem sortAsc_eq_of_perm {l l' : List F32} (hp : l.Perm l') (h : ∀ x ∈ l, x ≠ nan) :
    sortAsc id l = sortAsc id l' := by
  have h' : ∀ x ∈ l', x ≠ nan := fun x hx => h x (hp.mem_iff.2 hx)
  exact List.Perm.eq_of_pairwise (le := (· ≤ ·)) (fun a b _ _ h1 h2 => le_antisymm h1 h2)
    (sortAsc_pairwise (key := id) h) (sortAsc_pairwise (key := id) h')
    (((sortAsc_perm l).trans hp).trans (sortAsc_perm l').symm)

theorem countP_le_sorted {s : List F32} (hs : s.Pairwise (· ≤ ·)) (hn : ∀ x ∈ s, x ≠ nan) {i : ℕ}
    (hi : i < s.length) :
    i + 1 ≤ s.countP (fun x => decide (x ≤ s[i])) ∧ s.length - i ≤ s.countP (fun x => decide (s[i] ≤ x)) := by
  have hpw := List.pairwise_iff_getElem.1 hs
  constructor
  · have h1 : (s.take (i + 1)).countP (fun x => decide (x ≤ s[i])) = (s.take (i + 1)).length := by
      rw [List.countP_eq_length]
      intro x hx
      obtain ⟨j, hj, rfl⟩ := List.getElem_of_mem hx
      simp only [List.length_take] at hj
      rw [List.getElem_take, decide_eq_true_eq]
      rcases Nat.lt_or_eq_of_le (show j ≤ i by omega) with h | h
      · exact hpw j i (by omega) hi h
      · subst h; exact le_refl (hn _ (List.getElem_mem _))
    have h2 := (List.take_sublist (i + 1) s).countP_le (p := fun x => decide (x ≤ s[i]))
    rw [h1, List.length_take] at h2
    omega
  · have h1 : (s.drop i).countP (fun x => decide (s[i] ≤ x)) = (s.drop i).length := by
      rw [List.countP_eq_length]
      intro x hx
      obtain ⟨j, hj, rfl⟩ := List.getElem_of_mem hx
      simp only [List.length_drop] at hj
      rw [List.getElem_drop, decide_eq_true_eq]
      rcases Nat.eq_zero_or_pos j with h | h
      · subst h; exact le_refl (hn _ (List.getElem_mem _))
      · exact hpw i (i + j) hi (by omega) (by omega)
    have h2 := (List.drop_sublist i s).countP_le (p := fun x => decide (s[i] ≤ x))
    rw [h1, List.length_drop] at h2
    exact h2

theorem pctIdx_lt {n : ℕ} (p : F32) (h : 0 < n) : pctIdx n p < n := by
  unfold pctIdx
  have := Nat.min_le_right (F32.ofNat n * p).toUsize (n - 1)
  exact Nat.lt_of_le_of_lt this (by omega)

theorem pctValue_ok {l : List F32} (p : F32) (h : l ≠ []) :
    ∃ (hi : pctIdx l.length p < (sortAsc id l).length),
      pctValue l p = .ok (sortAsc id l)[pctIdx l.length p] := by
  have h0 : 0 < l.length := List.length_pos_iff.2 h
  have : pctIdx l.length p < (sortAsc id l).length := by
    rw [length_sortAsc]; exact pctIdx_lt p h0
  exact ⟨this, idx_ok this⟩

theorem inUnit_iff {p : F32} : inUnit p = true ↔ 0 ≤ p ∧ p ≤ 1 := by
  simp [inUnit]

/-! ### Flux -/

@[simp] theorem length_diffFlux (e : List F32) : (diffFlux e).length = e.length - 1 := by simp [diffFlux]

theorem diffFlux_getElem? {e : List F32} {i : ℕ} {x y : F32} (hx : e[i]? = some x) (hy : e[i + 1]? = some y) :
    (diffFlux e)[i]? = some (F32.max (y - x) 0) := by
  have : i + 1 < e.length := (List.getElem?_eq_some_iff.1 hy).1
  unfold diffFlux
  rw [List.getElem?_map, List.getElem?_range (by omega)]
  simp only [Option.map_some, getElem?_at' hx, getElem?_at' hy]

theorem diffFlux_nonneg {e : List F32} : ∀ x ∈ diffFlux e, 0 ≤ x := by
  intro x hx
  unfold diffFlux at hx
  obtain ⟨i, _, rfl⟩ := List.mem_map.1 hx
  exact le_max_right zero_ne_nan

theorem spectralFlux_nonneg {m : List (List F32)} : ∀ x ∈ spectralFlux m, 0 ≤ x := by
  intro x hx
  unfold spectralFlux at hx
  obtain ⟨i, _, rfl⟩ := List.mem_map.1 hx
  apply sqrt_nonneg
  apply sum_nonneg
  intro y hy
  obtain ⟨p, _, rfl⟩ := List.mem_map.1 hy
  dsimp only
  have h : 0 ≤ F32.max (p.2 - p.1) 0 := le_max_right zero_ne_nan
  generalize F32.max (p.2 - p.1) 0 = d at h
  refine mul_nonneg h h ?_
  rcases nonneg_cases h with rfl | ⟨v, hv, rfl, _⟩
  · rw [inf_mul_inf]; simp
  · rw [mul_fin]; simp

@[simp] theorem length_spectralFlux (m : List (List F32)) : (spectralFlux m).length = m.length - 1 := by
  simp [spectralFlux]

/-! ### Peak picking -/

/-- Specification: `k` is the later frame of a flux value `f[k-1]` above the threshold that is larger
than its left neighbour (if any) and at least its right neighbour (if any). -/
def FluxPeak (f : List F32) (thr : F32) (k : ℕ) : Prop :=
  2 ≤ f.length ∧ 1 ≤ k ∧ ∃ x, f[k - 1]? = some x ∧ thr < x ∧
    (∀ y, 2 ≤ k → f[k - 2]? = some y → y < x) ∧ (∀ y, f[k]? = some y → y ≤ x)

theorem FluxPeak.range {f : List F32} {thr : F32} {k : ℕ} (h : FluxPeak f thr k) :
    1 ≤ k ∧ k ≤ f.length := by
  obtain ⟨_, h1, x, hx, _⟩ := h
  have := (List.getElem?_eq_some_iff.1 hx).1
  omega

theorem mem_rawPeaks {f : List F32} {thr : F32} {k : ℕ} : k ∈ rawPeaks f thr ↔ FluxPeak f thr k := by
  unfold rawPeaks
  simp only [List.mem_append]
  constructor
  · rintro ((h | h) | h)
    · unfold interiorPeaks at h
      obtain ⟨i, hi, rfl⟩ := List.mem_map.1 h
      obtain ⟨hi, hc⟩ := List.mem_filter.1 hi
      rw [List.mem_range'_1] at hi
      simp only [Bool.and_eq_true, decide_eq_true_eq] at hc
      obtain ⟨⟨h1, h2⟩, h3⟩ := hc
      refine ⟨by omega, by omega, at' f i, ?_, h1, ?_, ?_⟩
      · rw [Nat.add_sub_cancel]; exact at'_getElem? (by omega)
      · intro y _ hy
        rw [show i + 1 - 2 = i - 1 by omega] at hy
        rw [← getElem?_at' hy]; exact h2
      · intro y hy; rw [← getElem?_at' hy]; exact h3
    · unfold firstPeak at h
      split_ifs at h with hc
      · obtain ⟨h0, h1, h2⟩ := hc
        obtain rfl : k = 1 := by simpa using h
        refine ⟨by omega, by omega, at' f 0, at'_getElem? (by omega), h1, fun y hk => by omega, ?_⟩
        intro y hy; rw [← getElem?_at' hy]; exact h2
      · simp at h
    · unfold lastPeak at h
      dsimp only at h
      split_ifs at h with hc
      · obtain ⟨h0, h1, h2⟩ := hc
        obtain rfl : k = f.length - 1 + 1 := by simpa using h
        refine ⟨by omega, by omega, at' f (f.length - 1), ?_, h1, ?_, ?_⟩
        · rw [Nat.add_sub_cancel]; exact at'_getElem? (by omega)
        · intro y _ hy
          rw [show f.length - 1 + 1 - 2 = f.length - 1 - 1 by omega] at hy
          rw [← getElem?_at' hy]; exact h2
        · intro y hy
          rw [List.getElem?_eq_none (by omega)] at hy; simp at hy
      · simp at h
  · rintro ⟨h0, h1, x, hx, ht, hl, hr⟩
    have hk := (List.getElem?_eq_some_iff.1 hx).1
    have hxe := getElem?_at' hx
    rcases Nat.lt_or_ge k 2 with hk2 | hk2
    · left; right
      obtain rfl : k = 1 := by omega
      unfold firstPeak
      rw [if_pos]
      · simp
      · refine ⟨by omega, by rw [hxe]; exact ht, ?_⟩
        rw [hxe]; exact hr _ (at'_getElem? (by omega))
    · rcases Nat.lt_or_ge k f.length with hkl | hkl
      · left; left
        unfold interiorPeaks
        refine List.mem_map.2 ⟨k - 1, List.mem_filter.2 ⟨?_, ?_⟩, by omega⟩
        · rw [List.mem_range'_1]; omega
        · simp only [Bool.and_eq_true, decide_eq_true_eq]
          refine ⟨⟨by rw [hxe]; exact ht, ?_⟩, ?_⟩
          · rw [hxe, show k - 1 - 1 = k - 2 by omega]; exact hl _ hk2 (at'_getElem? (by omega))
          · rw [hxe, show k - 1 + 1 = k by omega]; exact hr _ (at'_getElem? (by omega))
      · right
        unfold lastPeak
        dsimp only
        have : f.length - 1 = k - 1 := by omega
        rw [this, if_pos]
        · simp; omega
        · refine ⟨by omega, by rw [hxe]; exact ht, ?_⟩
          rw [hxe, show k - 1 - 1 = k - 2 by omega]; exact hl _ hk2 (at'_getElem? (by omega))

/-- The three peak loops never report a position twice. -/
theorem rawPeaks_nodup (f : List F32) (thr : F32) : (rawPeaks f thr).Nodup := by
  have hi : ∀ k ∈ interiorPeaks f thr, 2 ≤ k ∧ k < f.length := by
    intro k h
    unfold interiorPeaks at h
    obtain ⟨i, hi, rfl⟩ := List.mem_map.1 h
    obtain ⟨hi, _⟩ := List.mem_filter.1 hi
    rw [List.mem_range'_1] at hi
    omega
  have hf : ∀ k ∈ firstPeak f thr, k = 1 := by
    intro k h; unfold firstPeak at h; split_ifs at h
    · simpa using h
    · simp at h
  have hl : ∀ k ∈ lastPeak f thr, k = f.length ∧ 1 < f.length := by
    intro k h; unfold lastPeak at h; dsimp only at h; split_ifs at h with hc
    · have : k = f.length - 1 + 1 := by simpa using h
      omega
    · simp at h
  unfold rawPeaks
  rw [List.nodup_append, List.nodup_append]
  refine ⟨⟨?_, ?_, ?_⟩, ?_, ?_⟩
  · unfold interiorPeaks
    exact (List.Nodup.filter _ List.nodup_range').map (fun a b h => by simpa using h)
  · unfold firstPeak; split_ifs <;> simp
  · intro a ha b hb hab; have := hi a ha; have := hf b hb; omega
  · unfold lastPeak; dsimp only; split_ifs <;> simp
  · intro a ha b hb hab
    have h2 := hl b hb
    rcases List.mem_append.1 ha with h | h
    · have := hi a h; omega
    · have := hf a h; omega

theorem mem_pick {f : List F32} {thr : F32} {k : ℕ} :
    k ∈ dedupAdj (sortNat (rawPeaks f thr)) ↔ FluxPeak f thr k := by
  rw [mem_dedupAdj, mem_sortNat, mem_rawPeaks]

theorem pick_strict (f : List F32) (thr : F32) :
    (dedupAdj (sortNat (rawPeaks f thr))).Pairwise (· < ·) := dedupAdj_strict (sortNat_pairwise _)

/-! ### Spreading -/

theorem spread_eq_self {half : ℕ} {l : List ℕ} {o : ℕ} (h : (o :: l).Pairwise (fun a b => a + half ≤ b)) :
    spread half o l = l := by
  induction l generalizing o with
  | nil => rfl
  | cons b l ih =>
    rw [List.pairwise_cons] at h
    unfold spread
    rw [if_pos (h.1 b (by simp)), ih h.2]

theorem spreadAll_eq_self {half : ℕ} {l : List ℕ} (h : l.Pairwise (fun a b => a + half ≤ b)) :
    spreadAll half l = l := by
  cases l with
  | nil => rfl
  | cons o l => unfold spreadAll; dsimp only; rw [spread_eq_self h]

end Verif.Onset
