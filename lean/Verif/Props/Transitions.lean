/-
Property theorems C139: chord changes and short disturbances under median smoothing (src/features/chroma/smoothing.rs,
`smooth_chroma`).
-/
import Verif.Props.Smoothing

namespace Verif.Props
open Verif Verif.Chroma F32

/-- Specification: the strength of pitch class `j` in frame `k`. -/
def strength (vs : List (List F32)) (j k : ℕ) : F32 := (vs.getD k []).getD j 0

/-- Specification: the strengths of pitch class `j` in the frames at distance at most `h` from frame `i`. -/
def around (vs : List (List F32)) (j h i : ℕ) : List F32 := column vs j (fun k => decide (i ≤ k + h ∧ k ≤ i + h))

theorem countP_column (vs : List (List F32)) (j : ℕ) (p : ℕ → Bool) (q : F32 → Bool) :
    (column vs j p).countP q = (List.range vs.length).countP (fun k => q (strength vs j k) && p k) := by
  unfold column
  rw [List.countP_map, List.countP_filter]
  rfl

theorem range_split {s len n : ℕ} (h : s + len ≤ n) :
    List.range n = List.range' 0 s ++ List.range' s len ++ List.range' (s + len) (n - (s + len)) := by
  have h1 := List.range'_append_1 (s := 0) (m := s) (n := len)
  have h2 := List.range'_append_1 (s := 0) (m := s + len) (n := n - (s + len))
  rw [Nat.zero_add] at h1 h2
  rw [h1, h2, List.range_eq_range']
  congr 1
  omega

theorem countP_range_ge {s len n : ℕ} {p : ℕ → Bool} (h : s + len ≤ n) (hp : ∀ k, s ≤ k → k < s + len → p k = true) :
    len ≤ (List.range n).countP p := by
  rw [range_split h, List.countP_append, List.countP_append]
  have : (List.range' s len).countP p = len := by
    conv_rhs => rw [← List.length_range' (s := s) (n := len) (step := 1)]
    rw [List.countP_eq_length]
    intro k hk
    rw [List.mem_range'_1] at hk
    exact hp k hk.1 hk.2
  omega

theorem countP_range_le {s len n : ℕ} {p : ℕ → Bool} (h : s + len ≤ n) (hp : ∀ k, p k = true → s ≤ k ∧ k < s + len) :
    (List.range n).countP p ≤ len := by
  rw [range_split h, List.countP_append, List.countP_append]
  have h1 : (List.range' 0 s).countP p = 0 := by
    rw [List.countP_eq_zero]
    intro k hk hpk
    rw [List.mem_range'_1] at hk
    have := hp k hpk
    omega
  have h2 : (List.range' (s + len) (n - (s + len))).countP p = 0 := by
    rw [List.countP_eq_zero]
    intro k hk hpk
    rw [List.mem_range'_1] at hk
    have := hp k hpk
    omega
  have h3 := List.countP_le_length (p := p) (l := List.range' s len)
  rw [List.length_range'] at h3
  omega

theorem length_column (vs : List (List F32)) (j : ℕ) (p : ℕ → Bool) :
    (column vs j p).length = (List.range vs.length).countP p := by
  unfold column
  rw [List.length_map, List.countP_eq_length_filter]

theorem strength_ne_nan {vs : List (List F32)} {n : ℕ} (hr : RectC vs n) (hn : ∀ fr ∈ vs, ∀ x ∈ fr, x ≠ nan) {j k : ℕ}
    (hj : j < n) (hk : k < vs.length) : strength vs j k ≠ nan := by
  have hfr : vs[k] ∈ vs := List.getElem_mem hk
  have hl := hr _ hfr
  have : strength vs j k = vs[k][j] := by
    simp [strength, List.getD_eq_getElem?_getD, hk, hl, hj]
  rw [this]
  exact hn _ hfr _ (List.getElem_mem _)

theorem smooth_median {vs out : List (List F32)} {n window : ℕ} (hr : RectC vs n) (hn : ∀ fr ∈ vs, ∀ x ∈ fr, x ≠ nan)
    (hs : vs.length + window + 1 < 2 ^ 31) (ho : smooth vs window = .ok out) {i j : ℕ} (hi : i < vs.length) (hj : j < n) :
    IsWindowMedian (strength out j i) (around vs j (window / 2) i) ∧ strength out j i ≠ nan := by
  obtain ⟨out', h1, _, _, h4⟩ := C47_median vs n window hr hn hs
  rw [ho] at h1
  injection h1 with h1
  subst h1
  refine ⟨h4 i hi j hj, ?_⟩
  obtain ⟨k, hk, _, he⟩ := mem_column.1 (h4 i hi j hj).1
  unfold strength
  rw [he]
  exact strength_ne_nan hr hn hj hk

/-- **C139 (partial): chord changes stay where they are.** Away from the two ends, a pitch class that only rises or only falls
inside the window (such as at the change between two sustained chords) is returned unchanged.
Missing: the first and last `window / 2` frames (`C139_violated`). -/
theorem C139_changes_partial (vs out : List (List F32)) (n window i j : ℕ) (hr : RectC vs n)
    (hn : ∀ fr ∈ vs, ∀ x ∈ fr, x ≠ nan) (hs : vs.length + window + 1 < 2 ^ 31) (ho : smooth vs window = .ok out)
    (hj : j < n) (hi1 : window / 2 ≤ i) (hi2 : i + window / 2 < vs.length)
    (hm : (∀ k l, i ≤ k + window / 2 → k ≤ l → l ≤ i + window / 2 → strength vs j k ≤ strength vs j l) ∨
      ∀ k l, i ≤ k + window / 2 → k ≤ l → l ≤ i + window / 2 → strength vs j l ≤ strength vs j k) :
    strength out j i = strength vs j i := by
  generalize hh : window / 2 = h at *
  obtain ⟨⟨_, m2, m3⟩, hnn⟩ := smooth_median hr hn hs ho (i := i) (j := j) (by omega) hj
  rw [hh] at m2 m3
  have hv := strength_ne_nan hr hn hj (k := i) (by omega)
  have hlen : (around vs j h i).length ≤ 2 * h + 1 := by
    unfold around
    rw [length_column]
    refine countP_range_le (s := i - h) (by omega) (fun k hk => ?_)
    rw [decide_eq_true_eq] at hk
    omega
  have side : ∀ s, (s = i ∨ s + h = i) → ∀ q : F32 → Bool, (∀ k, s ≤ k → k < s + (h + 1) → q (strength vs j k) = true) →
      h + 1 ≤ (around vs j h i).countP q := by
    intro s hs' q hq
    unfold around
    rw [countP_column]
    refine countP_range_ge (s := s) (by omega) (fun k h1 h2 => ?_)
    rw [hq k h1 h2, Bool.true_and, decide_eq_true_eq]
    omega
  refine F32.le_antisymm (F32.le_of_not_lt hnn hv fun hc => ?_) (F32.le_of_not_lt hv hnn fun hc => ?_)
  · rcases hm with hm | hm
    · have := side (i - h) (by omega) (fun y => decide (y < strength out j i)) (fun k h1 h2 => by
        rw [decide_eq_true_eq]
        exact F32.lt_of_le_of_lt (hm k i (by omega) (by omega) (by omega)) hc)
      omega
    · have := side i (by omega) (fun y => decide (y < strength out j i)) (fun k h1 h2 => by
        rw [decide_eq_true_eq]
        exact F32.lt_of_le_of_lt (hm i k (by omega) (by omega) (by omega)) hc)
      omega
  · rcases hm with hm | hm
    · have := side i (by omega) (fun y => decide (strength out j i < y)) (fun k h1 h2 => by
        rw [decide_eq_true_eq]
        exact F32.lt_of_lt_of_le hc (hm i k (by omega) (by omega) (by omega)))
      omega
    · have := side (i - h) (by omega) (fun y => decide (strength out j i < y)) (fun k h1 h2 => by
        rw [decide_eq_true_eq]
        exact F32.lt_of_lt_of_le hc (hm k i (by omega) (by omega) (by omega)))
      omega

/-- A change between two sustained strengths, window 3: kept in its place by the median, blurred by the average. -/
example : smooth [[0.25], [0.25], [0.25], [0.75], [0.75], [(0.75 : F32)]] 3 =
      .ok [[0.25], [0.25], [0.25], [0.75], [0.75], [0.75]] ∧
    smoothAverage [[0.25], [0.25], [0.25], [1], [1], [(1 : F32)]] 3 ≠ .ok [[0.25], [0.25], [0.25], [1], [1], [1]] := by
  decide +kernel

/-- **C139: short disturbances disappear.** When more than half of the frames of the window (fewer at the two ends) have the
same strength, that is the smoothed strength, whatever the other frames contain. -/
theorem C139_blips (vs out : List (List F32)) (n window i j : ℕ) (v : F32) (hr : RectC vs n)
    (hn : ∀ fr ∈ vs, ∀ x ∈ fr, x ≠ nan) (hs : vs.length + window + 1 < 2 ^ 31) (ho : smooth vs window = .ok out)
    (hj : j < n) (hi : i < vs.length)
    (hm : (around vs j (window / 2) i).length < 2 * (around vs j (window / 2) i).countP (fun y => decide (y = v))) :
    strength out j i = v := by
  obtain ⟨⟨_, m2, m3⟩, hnn⟩ := smooth_median hr hn hs ho hi hj
  have hv : v ≠ nan := by
    rintro rfl
    have : (around vs j (window / 2) i).countP (fun y => decide (y = nan)) = 0 := by
      rw [List.countP_eq_zero]
      intro x hx
      obtain ⟨k, hk, _, rfl⟩ := mem_column.1 hx
      rw [decide_eq_true_eq]
      exact strength_ne_nan hr hn hj hk
    omega
  refine F32.le_antisymm (F32.le_of_not_lt hnn hv fun hc => ?_) (F32.le_of_not_lt hv hnn fun hc => ?_)
  · have := List.countP_mono_left (l := around vs j (window / 2) i) (p := fun y => decide (y = v))
      (q := fun y => decide (y < strength out j i)) (by
        intro x _ hx
        rw [decide_eq_true_eq] at hx ⊢
        rw [hx]; exact hc)
    omega
  · have := List.countP_mono_left (l := around vs j (window / 2) i) (p := fun y => decide (y = v))
      (q := fun y => decide (strength out j i < y)) (by
        intro x _ hx
        rw [decide_eq_true_eq] at hx ⊢
        rw [hx]; exact hc)
    omega

/-- A click of two frames, window 5. -/
example : smooth [[0.25], [0.25], [0.25], [0.75], [1], [0.25], [0.25], [(0.25 : F32)]] 5 =
      .ok [[0.25], [0.25], [0.25], [0.25], [0.25], [0.25], [0.25], [0.25]] ∧
    (around [[0.25], [0.25], [0.25], [0.75], [1], [0.25], [0.25], [(0.25 : F32)]] 0 (5 / 2) 3).length <
      2 * (around [[0.25], [0.25], [0.25], [0.75], [1], [0.25], [0.25], [(0.25 : F32)]] 0 (5 / 2) 3).countP
        (fun y => decide (y = 0.25)) := by
  decide +kernel

/-- **C139 is violated at the ends**: a pitch class that gets stronger after `m` frames, at most half of the frames that are
left of the window at the beginning, is reported with its later strength from the first frame on, although it only rises. -/
theorem C139_violated (x y : F32) (m k window : ℕ) (out : List (List F32)) (hxy : x < y) (hm : 0 < m)
    (hw : 2 * m ≤ window / 2 + 1) (hk : window / 2 + 1 ≤ m + k) (hs : m + k + window + 1 < 2 ^ 31)
    (ho : smooth (List.replicate m [x] ++ List.replicate k [y]) window = .ok out) :
    strength (List.replicate m [x] ++ List.replicate k [y]) 0 0 = x ∧ strength out 0 0 = y := by
  set vs := List.replicate m [x] ++ List.replicate k [y] with hvs
  have hx : x ≠ nan := F32.ne_nan_left' hxy
  have hy : y ≠ nan := F32.ne_nan_right' hxy
  have hl : vs.length = m + k := by rw [hvs]; simp
  have hr : RectC vs 1 := by
    intro fr hfr
    rw [hvs, List.mem_append, List.mem_replicate, List.mem_replicate] at hfr
    rcases hfr with ⟨_, rfl⟩ | ⟨_, rfl⟩ <;> rfl
  have hn : ∀ fr ∈ vs, ∀ z ∈ fr, z ≠ nan := by
    intro fr hfr z hz
    rw [hvs, List.mem_append, List.mem_replicate, List.mem_replicate] at hfr
    rcases hfr with ⟨_, rfl⟩ | ⟨_, rfl⟩ <;> simp at hz <;> subst hz <;> assumption
  have hval : ∀ q < m + k, strength vs 0 q = if q < m then x else y := by
    intro q hq
    unfold strength
    rw [hvs, List.getD_eq_getElem?_getD (l := List.replicate m [x] ++ _), List.getElem?_append, List.length_replicate]
    split_ifs with h
    · simp [h]
    · simp [show q - m < k by omega]
  refine ⟨by rw [hval 0 (by omega), if_pos hm], ?_⟩
  obtain ⟨⟨m1, m2, m3⟩, hnn⟩ := smooth_median hr hn (by rw [hl]; exact hs) ho (i := 0) (j := 0) (by omega) (by omega)
  obtain ⟨q, hq, _, he⟩ := mem_column.1 m1
  rw [hl] at hq
  have he' : strength out 0 0 = if q < m then x else y := he.trans (hval q hq)
  rw [he']
  split_ifs with h
  · exfalso
    rw [he', if_pos h] at m3
    have hlen : (around vs 0 (window / 2) 0).length ≤ window / 2 + 1 := by
      unfold around
      rw [length_column]
      refine countP_range_le (s := 0) (by omega) (fun k hk => ?_)
      rw [decide_eq_true_eq] at hk
      omega
    have hc : window / 2 + 1 - m ≤ (around vs 0 (window / 2) 0).countP (fun z => decide (x < z)) := by
      unfold around
      rw [countP_column]
      refine countP_range_ge (s := m) (by omega) (fun q h1 h2 => ?_)
      rw [hval q (by omega), if_neg (by omega), decide_eq_true hxy, Bool.true_and, decide_eq_true_eq]
      omega
    omega
  · rfl

/-- Two frames of a weak tone before a strong one, window 7: both become strong. -/
example : smooth (List.replicate 2 [(0.25 : F32)] ++ List.replicate 5 [0.75]) 7 = .ok (List.replicate 7 [0.75]) := by
  decide +kernel

/-- **C139 is violated** (disturbances): next to the end of the recording a click of a single frame is not removed but moved
to both its neighbours. -/
theorem C139_violated_click : smooth [[0.25], [0.75], [(0.25 : F32)]] 3 = .ok [[0.75], [0.25], [0.75]] := by
  decide +kernel

end Verif.Props
