/-
Property theorems C104: trimming audio that has already been trimmed
(src/preprocessing/silence.rs, `detect_and_trim`).
-/
import Verif.Props.Silence

namespace Verif.Props
open Verif Verif.Silence

/-- A frame of the signal that was measured above the threshold. -/
def LoudFrame (M : Libm) (det : Detector) (x : List F32) (k : ℕ) : Prop :=
  IsFrame x.length det.frameSize k ∧ ¬ SilentFrame x det.frameSize (M.powf 10 (det.thresholdDb / 20)) k

/-- The signal ends in the silent frames `i .. j-1`: they are its last frames and all silent. -/
def EndsSilent (M : Libm) (det : Detector) (x : List F32) (i j : ℕ) : Prop :=
  i < j ∧ ¬ IsFrame x.length det.frameSize j ∧ ∀ k, i ≤ k → k < j → IsFrame x.length det.frameSize k ∧
    SilentFrame x det.frameSize (M.powf 10 (det.thresholdDb / 20)) k

/-- The silent frames at the end of the signal do not reach the minimum duration. -/
def ShortTail (M : Libm) (det : Detector) (sr : ℕ) (x : List F32) : Prop :=
  ∀ i j, EndsSilent M det x i j →
    (j - i) * (det.frameSize / 2) < (F32.ofNat det.minDurationMs / 1000 * F32.ofNat sr).toUsize

/-- Frames of a piece of the signal that starts on the frame grid are frames of the signal. -/
theorem frame_piece {x : List F32} {fs a k len : ℕ} (h : k * (fs / 2) + fs ≤ len) :
    Silence.frame ((x.drop (a * (fs / 2))).take len) fs k = Silence.frame x fs (a + k) := by
  unfold Silence.frame
  rw [List.drop_take, List.take_take, List.drop_drop, Nat.add_mul]
  congr 1
  omega

theorem frame_suffix {x : List F32} {fs a k : ℕ} :
    Silence.frame (x.drop (a * (fs / 2))) fs k = Silence.frame x fs (a + k) := by
  unfold Silence.frame
  rw [List.drop_drop, Nat.add_mul]

theorem isFrame_pos {n fs k : ℕ} (h2 : 2 ≤ fs) (hn : 0 < n) (h : IsFrame n fs k) : k * (fs / 2) < n := by
  rcases h with h | ⟨rfl, h⟩ <;> omega

theorem isFrame_down {n fs k m : ℕ} (h : IsFrame n fs k) (hm : m ≤ k) : IsFrame n fs m := by
  rcases h with h | ⟨rfl, h⟩
  · have := Nat.mul_le_mul_right (fs / 2) hm
    exact .inl (by omega)
  · obtain rfl : m = 0 := by omega
    exact .inr ⟨rfl, h⟩

/-- Both cut points, read off the silence map. -/
theorem trim_by_map (M : Libm) (x : List F32) (sr : ℕ) (det : Detector)
    (h0 : x ≠ []) (hs : sr ≠ 0) (h2 : 2 ≤ det.frameSize) :
    ∃ map a b, detectAndTrim M x sr det = .ok ((x.drop a).take (b - a), map) ∧
      ((∃ e, (0, e) ∈ map ∧ a = min e b) ∨ (a = 0 ∧ ∀ e, (0, e) ∉ map)) ∧
      (((b, x.length) ∈ map) ∨ (b = x.length ∧ ∀ s, (s, x.length) ∉ map)) := by
  obtain ⟨rs, e, hmem, hord, hb⟩ := detectAndTrim_unfold (M := M) h0 hs h2
  have hm : ∀ s e, (s, e) ∈ rs.map (fun r => (r.start, r.stop)) ↔ (⟨s, e⟩ : Region) ∈ rs := by
    intro s e
    simp only [List.mem_map, Prod.mk.injEq]
    constructor
    · rintro ⟨r, hr, rfl, rfl⟩; exact hr
    · intro h; exact ⟨_, h, rfl, rfl⟩
  refine ⟨_, _, _, e, ?_, ?_⟩
  · simp only [hm]
    cases rs with
    | nil => right; simp [trimBounds]
    | cons r rest =>
      obtain ⟨rs0, re⟩ := r
      by_cases h : rs0 = 0
      · left
        subst h
        refine ⟨re, by simp, ?_⟩
        unfold trimBounds
        simp only [List.head?_cons, if_pos, Nat.min_def, Nat.max_def]
        generalize (match (⟨0, re⟩ :: rest : List Region).getLast? with
          | some r => if r.stop = x.length then r.start else x.length | none => x.length) = q
        split_ifs <;> omega
      · right
        constructor
        · unfold trimBounds
          simp only [List.head?_cons, if_neg h]
          exact Nat.zero_min _
        · intro e' he
          rcases List.mem_cons.1 he with h' | h'
          · injection h' with h1 h2; exact h h1.symm
          · have := (List.pairwise_cons.1 hord).1 _ h'
            dsimp only at this; omega
  · simp only [hm]
    rcases List.eq_nil_or_concat rs with rfl | ⟨init, r, rfl⟩
    · right; simp [trimBounds]
    · rw [List.concat_eq_append] at *
      obtain ⟨ra, re⟩ := r
      have hbr := hb ⟨ra, re⟩ (by simp)
      dsimp only at hbr
      by_cases h : re = x.length
      · left
        subst h
        have : (trimBounds x.length (init ++ [⟨ra, x.length⟩])).2 = ra := by
          unfold trimBounds
          simp only [List.getLast?_append, List.getLast?_singleton, Option.some_or, if_true]
          exact Nat.max_eq_left (Nat.min_le_right _ _)
        rw [this]; simp
      · right
        constructor
        · unfold trimBounds
          simp only [List.getLast?_append, List.getLast?_singleton, Option.some_or, if_neg h]
          exact Nat.max_eq_left (Nat.min_le_right _ _)
        · intro s hs'
          rcases List.mem_append.1 hs' with h' | h'
          · have := (List.pairwise_append.1 hord).2.2 _ h' ⟨ra, re⟩ (by simp)
            dsimp only at this; omega
          · simp only [List.mem_singleton, Region.mk.injEq] at h'
            exact h h'.2.symm

/-- The entries of the silence map, as `C01_silence_map_exact` describes them. -/
theorem map_entry {M : Libm} {x y : List F32} {sr : ℕ} {det : Detector} {map : List (ℕ × ℕ)}
    (h0 : x ≠ []) (hs : sr ≠ 0) (h2 : 2 ≤ det.frameSize) (h : detectAndTrim M x sr det = .ok (y, map)) (s e : ℕ) :
    (s, e) ∈ map ↔ ∃ i j, i < j ∧
        (∀ k, i ≤ k → k < j → IsFrame x.length det.frameSize k ∧
          SilentFrame x det.frameSize (M.powf 10 (det.thresholdDb / 20)) k) ∧
        (i = 0 ∨ ¬ SilentFrame x det.frameSize (M.powf 10 (det.thresholdDb / 20)) (i - 1)) ∧
        (i = 0 ∨ (F32.ofNat det.minDurationMs / 1000 * F32.ofNat sr).toUsize ≤
          (j - i) * (det.frameSize / 2)) ∧
        s = i * (det.frameSize / 2) ∧
        ((¬ IsFrame x.length det.frameSize j ∧ e = x.length) ∨
         (IsFrame x.length det.frameSize j ∧
          ¬ SilentFrame x det.frameSize (M.powf 10 (det.thresholdDb / 20)) j ∧
          e = j * (det.frameSize / 2))) := by
  obtain ⟨y', map', e', hm⟩ := C01_silence_map_exact M x sr det h0 hs h2
  rw [e'] at h
  injection h with h
  injection h with _ h
  subst h
  exact hm s e

/-- An entry reaching the end of the audio is its silent tail. -/
theorem tail_entry {M : Libm} {x y : List F32} {sr : ℕ} {det : Detector} {map : List (ℕ × ℕ)}
    (h0 : x ≠ []) (hs : sr ≠ 0) (h2 : 2 ≤ det.frameSize) (h : detectAndTrim M x sr det = .ok (y, map)) {s : ℕ}
    (hm : (s, x.length) ∈ map) : ∃ i j, EndsSilent M det x i j ∧ s = i * (det.frameSize / 2) ∧
      (i = 0 ∨ LoudFrame M det x (i - 1)) ∧
      (i = 0 ∨ (F32.ofNat det.minDurationMs / 1000 * F32.ofNat sr).toUsize ≤ (j - i) * (det.frameSize / 2)) := by
  have hn : 0 < x.length := List.length_pos_iff.2 h0
  obtain ⟨i, j, h1, h3, h4, h5, h6, h7⟩ := (map_entry h0 hs h2 h _ _).1 hm
  refine ⟨i, j, ⟨h1, ?_, h3⟩, h6, ?_, h5⟩
  · rcases h7 with h | ⟨g1, _, g2⟩
    · exact h.1
    · have := isFrame_pos h2 hn g1; omega
  · rcases h4 with h | h
    · exact .inl h
    · exact .inr ⟨isFrame_down (h3 i (by omega) h1).1 (by omega), h⟩

/-- **C104 (when trimming changes nothing).** Audio whose first frame is loud and whose trailing silent frames are fewer
than the minimum duration comes back unchanged. -/
theorem C104_unchanged (M : Libm) (y : List F32) (sr : ℕ) (det : Detector)
    (hs : sr ≠ 0) (h2 : 2 ≤ det.frameSize) (hl : LoudFrame M det y 0) (ht : ShortTail M det sr y) :
    ∃ map, detectAndTrim M y sr det = .ok (y, map) := by
  by_cases h0 : y = []
  · subst h0; exact ⟨[], by simp [detectAndTrim]⟩
  obtain ⟨map, a, b, e, ha, hb⟩ := trim_by_map M y sr det h0 hs h2
  have hb' : b = y.length := by
    rcases hb with hb | hb
    · obtain ⟨i, j, h1, h3, h4, h5⟩ := tail_entry h0 hs h2 e hb
      have := ht i j h1
      rcases h5 with rfl | h5
      · exact absurd (h1.2.2 0 (by omega) h1.1).2 hl.2
      · omega
    · exact hb.1
  have ha' : a = 0 := by
    rcases ha with ⟨e', ha, _⟩ | ha
    · obtain ⟨i, j, h1, h3, h4, h5, h6, h7⟩ := (map_entry h0 hs h2 e _ _).1 ha
      have : i = 0 := by
        rcases Nat.mul_eq_zero.1 h6.symm with h | h <;> omega
      subst this
      exact absurd (h3 0 (by omega) h1).2 hl.2
    · exact ha.1
  subst ha' hb'
  exact ⟨map, by simpa using e⟩

/-- A silent tail can be extended to the left as far as it goes. -/
theorem tail_run {M : Libm} {det : Detector} {x : List F32} {j : ℕ} : ∀ {i : ℕ}, EndsSilent M det x i j →
    ∃ i', i' ≤ i ∧ EndsSilent M det x i' j ∧
      (i' = 0 ∨ ¬ SilentFrame x det.frameSize (M.powf 10 (det.thresholdDb / 20)) (i' - 1)) := by
  intro i
  induction i with
  | zero => intro h; exact ⟨0, Nat.le_refl _, h, .inl rfl⟩
  | succ i ih =>
    intro h
    by_cases hs : SilentFrame x det.frameSize (M.powf 10 (det.thresholdDb / 20)) i
    · obtain ⟨i', h1, h2⟩ := ih ⟨by have := h.1; omega, h.2.1, fun k hk hk' => by
        rcases Nat.eq_or_lt_of_le hk with rfl | h'
        · exact ⟨isFrame_down (h.2.2 (i + 1) (Nat.le_refl _) h.1).1 (by omega), hs⟩
        · exact h.2.2 k h' hk'⟩
      exact ⟨i', by omega, h2⟩
    · exact ⟨i + 1, Nat.le_refl _, h, .inr (by simpa using hs)⟩

/-- A silent first frame starts an entry of the map. -/
theorem head_run {M : Libm} {x y : List F32} {sr : ℕ} {det : Detector} {map : List (ℕ × ℕ)}
    (h0 : x ≠ []) (hs : sr ≠ 0) (h2 : 2 ≤ det.frameSize) (h : detectAndTrim M x sr det = .ok (y, map))
    (hq : SilentFrame x det.frameSize (M.powf 10 (det.thresholdDb / 20)) 0) : ∃ e, (0, e) ∈ map := by
  classical
  have hf0 : IsFrame x.length det.frameSize 0 := by
    rcases Nat.lt_or_ge x.length det.frameSize with h | h
    · exact .inr ⟨rfl, h⟩
    · exact .inl (by omega)
  have hex : ∃ j, ¬ (IsFrame x.length det.frameSize j ∧
      SilentFrame x det.frameSize (M.powf 10 (det.thresholdDb / 20)) j) := by
    refine ⟨x.length + 1, fun h => ?_⟩
    have h1 := isFrame_pos h2 (List.length_pos_iff.2 h0) h.1
    have := Nat.le_mul_of_pos_right (x.length + 1) (show 0 < det.frameSize / 2 by omega)
    omega
  have hmin := fun m => Nat.find_min hex (m := m)
  have hj := Nat.find_spec hex
  generalize Nat.find hex = j at hmin hj
  have hj0 : 0 < j := by
    rcases Nat.eq_zero_or_pos j with rfl | h
    · exact absurd ⟨hf0, hq⟩ hj
    · exact h
  have hall : ∀ k, 0 ≤ k → k < j → IsFrame x.length det.frameSize k ∧
      SilentFrame x det.frameSize (M.powf 10 (det.thresholdDb / 20)) k := by
    intro k _ hk
    have := hmin k hk
    exact not_not.1 this
  by_cases hfj : IsFrame x.length det.frameSize j
  · exact ⟨j * (det.frameSize / 2), (map_entry h0 hs h2 h _ _).2 ⟨0, j, hj0, hall, .inl rfl, .inl rfl, by simp,
      .inr ⟨hfj, fun h => hj ⟨hfj, h⟩, rfl⟩⟩⟩
  · exact ⟨x.length, (map_entry h0 hs h2 h _ _).2 ⟨0, j, hj0, hall, .inl rfl, .inl rfl, by simp, .inl ⟨hfj, rfl⟩⟩⟩

/-- **C104 (exactly when trimming changes nothing).** Non-empty audio comes back unchanged if and only if its first frame
is loud and its silent tail is shorter than the minimum duration. -/
theorem C104_unchanged_iff (M : Libm) (y : List F32) (sr : ℕ) (det : Detector) (h0 : y ≠ [])
    (hs : sr ≠ 0) (h2 : 2 ≤ det.frameSize) :
    (∃ map, detectAndTrim M y sr det = .ok (y, map)) ↔ LoudFrame M det y 0 ∧ ShortTail M det sr y := by
  refine ⟨?_, fun h => C104_unchanged M y sr det hs h2 h.1 h.2⟩
  rintro ⟨map, h⟩
  have hn : 0 < y.length := List.length_pos_iff.2 h0
  obtain ⟨map', a, b, e, ha, hb⟩ := trim_by_map M y sr det h0 hs h2
  have hmap : map' = map := by rw [e] at h; injection h with h; injection h
  have hlen : min (b - a) (y.length - a) = y.length := by
    rw [e] at h; injection h with h; injection h with h _
    have := congrArg List.length h
    simpa using this
  subst hmap
  constructor
  · refine ⟨?_, fun hq => ?_⟩
    · rcases Nat.lt_or_ge y.length det.frameSize with h | h
      · exact .inr ⟨rfl, h⟩
      · exact .inl (by omega)
    · obtain ⟨e', he⟩ := head_run h0 hs h2 h hq
      rcases ha with ⟨e'', h1, h3⟩ | ⟨_, h1⟩
      · have := ((C01_trim_contiguous M y sr det _ _ h).2.1 _ h1).1
        dsimp only at this
        omega
      · exact h1 _ he
  · intro i j hij
    by_contra hc
    obtain ⟨i', h1, h3, h4⟩ := tail_run hij
    have hm : (i' * (det.frameSize / 2), y.length) ∈ map' := by
      refine (map_entry h0 hs h2 h _ _).2 ⟨i', j, h3.1, h3.2.2, h4, ?_, rfl, .inl ⟨h3.2.1, rfl⟩⟩
      right
      refine (Nat.not_lt.1 hc).trans (Nat.mul_le_mul_right _ (by omega))
    rcases hb with hb | hb
    · have := ((C01_trim_contiguous M y sr det _ _ h).2.1 _ hb).1
      dsimp only at this
      omega
    · exact hb.2 _ hm

/-- **C104 (partial).** Full claim: trimming audio a second time changes nothing.  Proved here: for recordings from whose
end nothing was cut.  What is missing is false, see `C104_violated`. -/
theorem C104_again_partial (M : Libm) (x y : List F32) (sr : ℕ) (det : Detector) (map : List (ℕ × ℕ))
    (h : detectAndTrim M x sr det = .ok (y, map)) (hend : ∀ s, (s, x.length) ∉ map) :
    ∃ map', detectAndTrim M y sr det = .ok (y, map') := by
  by_cases h0 : x = []
  · subst h0
    have : y = [] := by simp [detectAndTrim] at h; exact h.1
    subst this; exact ⟨_, h⟩
  by_cases hs : sr = 0
  · simp [detectAndTrim, h0, hs] at h
  by_cases h2 : 2 ≤ det.frameSize
  swap
  · exfalso
    have : det.frameSize = 0 ∨ det.frameSize = 1 := by omega
    rcases this with h1 | h1 <;> simp [detectAndTrim, h0, hs, h1] at h
  have hn : 0 < x.length := List.length_pos_iff.2 h0
  obtain ⟨map', a, b, e, ha, hb⟩ := trim_by_map M x sr det h0 hs h2
  have hmap : map' = map := by rw [e] at h; injection h with h; injection h
  have hy : y = (x.drop a).take (b - a) := by rw [e] at h; injection h with h; injection h with h _; exact h.symm
  subst hmap
  have hb' : b = x.length := by
    rcases hb with hb | hb
    · exact absurd hb (hend _)
    · exact hb.1
  subst hb'
  rcases ha with ⟨e', hm, ha⟩ | ⟨rfl, _⟩
  · obtain ⟨i, j, g1, g3, g4, g5, g6, g7⟩ := (map_entry h0 hs h2 h _ _).1 hm
    have : i = 0 := by rcases Nat.mul_eq_zero.1 g6.symm with h | h <;> omega
    subst this
    rcases g7 with ⟨_, rfl⟩ | ⟨hfj, hq, rfl⟩
    · exact absurd hm (hend _)
    have hpos := isFrame_pos h2 hn hfj
    have haj : a = j * (det.frameSize / 2) := by omega
    subst haj
    have hfull : j * (det.frameSize / 2) + det.frameSize ≤ x.length := by
      rcases hfj with h | h <;> omega
    have hy' : y = x.drop (j * (det.frameSize / 2)) := by
      rw [hy]; exact List.take_of_length_le (by simp)
    subst hy'
    have hlen : (x.drop (j * (det.frameSize / 2))).length = x.length - j * (det.frameSize / 2) := by simp
    have hfr : ∀ k, IsFrame (x.drop (j * (det.frameSize / 2))).length det.frameSize k ↔
        IsFrame x.length det.frameSize (j + k) := by
      intro k
      unfold IsFrame
      rw [hlen, Nat.add_mul]
      omega
    have hsil : ∀ k, SilentFrame (x.drop (j * (det.frameSize / 2))) det.frameSize
        (M.powf 10 (det.thresholdDb / 20)) k ↔
        SilentFrame x det.frameSize (M.powf 10 (det.thresholdDb / 20)) (j + k) := by
      intro k; unfold SilentFrame; rw [frame_suffix]
    apply C104_unchanged M _ sr det hs h2
    · exact ⟨(hfr 0).2 (by simpa using hfj), fun hc => hq (by simpa using (hsil 0).1 hc)⟩
    · intro i i2 ⟨k1, k2, k3⟩
      have hx : EndsSilent M det x (j + i) (j + i2) := by
        refine ⟨by omega, fun hc => k2 ((hfr i2).2 hc), fun k hk hk' => ?_⟩
        obtain ⟨q, rfl⟩ : ∃ q, k = j + q := ⟨k - j, by omega⟩
        have := k3 q (by omega) (by omega)
        exact ⟨(hfr q).1 this.1, (hsil q).1 this.2⟩
      obtain ⟨i', h1, h3, h4⟩ := tail_run hx
      by_contra hc
      have h5 : i2 - i ≤ j + i2 - i' := by omega
      have h6 := Nat.mul_le_mul_right (det.frameSize / 2) h5
      exact hend (i' * (det.frameSize / 2)) ((map_entry h0 hs h2 h _ _).2
        ⟨i', j + i2, h3.1, h3.2.2, h4, .inr (by omega), rfl, .inl ⟨h3.2.1, rfl⟩⟩)
  · have : y = x := by rw [hy]; simp
    subst this; exact ⟨_, h⟩

/-- **C104 (partial, sound that ends in silence).** For an even frame size trimming a second time also changes nothing
when the cut-off tail was preceded by two loud frames. -/
theorem C104_sustained_partial (M : Libm) (x y : List F32) (sr : ℕ) (det : Detector) (map : List (ℕ × ℕ)) (L : ℕ)
    (h : detectAndTrim M x sr det = .ok (y, map)) (heven : det.frameSize = 2 * (det.frameSize / 2))
    (htail : (L * (det.frameSize / 2), x.length) ∈ map) (h2L : 2 ≤ L)
    (hl1 : LoudFrame M det x (L - 1)) (hl2 : LoudFrame M det x (L - 2)) :
    ∃ map', detectAndTrim M y sr det = .ok (y, map') := by
  have h0 : x ≠ [] := by
    rintro rfl
    have : map = [] := by simp [detectAndTrim] at h; exact h.2
    rw [this] at htail; simp at htail
  have hs : sr ≠ 0 := by
    intro hs
    simp [detectAndTrim, h0, hs] at h
  have h2 : 2 ≤ det.frameSize := by
    by_contra hc
    have : det.frameSize = 0 ∨ det.frameSize = 1 := by omega
    rcases this with h1 | h1 <;> simp [detectAndTrim, h0, hs, h1] at h
  have hop0 : 0 < det.frameSize / 2 := by omega
  have hn : 0 < x.length := List.length_pos_iff.2 h0
  obtain ⟨map', a, b, e, ha, hb⟩ := trim_by_map M x sr det h0 hs h2
  have hmap : map' = map := by rw [e] at h; injection h with h; injection h
  have hy : y = (x.drop a).take (b - a) := by rw [e] at h; injection h with h; injection h with h _; exact h.symm
  subst hmap
  -- the cut at the end
  have hbL : b = L * (det.frameSize / 2) := by
    rcases hb with hb | hb
    · obtain ⟨i, j, g1, g2, g3, _⟩ := tail_entry h0 hs h2 h hb
      obtain ⟨i', j', g1', g2', g3', _⟩ := tail_entry h0 hs h2 h htail
      have hiL : i' = L := (Nat.eq_of_mul_eq_mul_right hop0 g2').symm
      subst hiL
      have hij : i = i' := by
        rcases Nat.lt_trichotomy i i' with hlt | heq | hgt
        · exact absurd (g1.2.2 (i' - 1) (by omega) (by
            by_contra hc
            exact g1.2.1 (isFrame_down hl1.1 (by omega)))).2 hl1.2
        · exact heq
        · rcases g3 with g | g
          · omega
          · exact absurd (g1'.2.2 (i - 1) (by omega) (by
              by_contra hc
              exact g1'.2.1 (isFrame_down g.1 (by omega)))).2 g.2
      rw [g2, hij]
    · exact absurd htail (hb.2 _)
  subst hbL
  have hLn : L * (det.frameSize / 2) ≤ x.length := ((C01_trim_contiguous M x sr det _ _ h).2.1 _ htail).1.le
  -- the cut at the front
  obtain ⟨j, haj, hjL, hlj⟩ : ∃ j, a = j * (det.frameSize / 2) ∧ j + 2 ≤ L ∧
      ¬ SilentFrame x det.frameSize (M.powf 10 (det.thresholdDb / 20)) j := by
    rcases ha with ⟨e', hm, ha⟩ | ⟨rfl, hno⟩
    · obtain ⟨i, j, g1, g3, g4, g5, g6, g7⟩ := (map_entry h0 hs h2 h _ _).1 hm
      have : i = 0 := by rcases Nat.mul_eq_zero.1 g6.symm with h | h <;> omega
      subst this
      have hjL : j + 2 ≤ L := by
        by_contra hc
        exact hl2.2 (g3 (L - 2) (by omega) (by omega)).2
      rcases g7 with ⟨g7, _⟩ | ⟨g7, g8, rfl⟩
      · exact absurd (isFrame_down hl2.1 (by omega)) g7
      · refine ⟨j, ?_, hjL, g8⟩
        have := Nat.mul_le_mul_right (det.frameSize / 2) (show j ≤ L by omega)
        omega
    · refine ⟨0, by simp, by omega, fun hq => ?_⟩
      obtain ⟨e', he⟩ := head_run h0 hs h2 h hq
      exact hno _ he
  subst haj
  rw [← Nat.sub_mul] at hy
  have hle := Nat.mul_le_mul_right (det.frameSize / 2) (show 2 ≤ L - j by omega)
  have hmul : (L - j) * (det.frameSize / 2) + j * (det.frameSize / 2) = L * (det.frameSize / 2) := by
    rw [← Nat.add_mul]; congr 1; omega
  have hlen : y.length = (L - j) * (det.frameSize / 2) := by
    rw [hy]; simp; omega
  have hfr : ∀ k, IsFrame y.length det.frameSize k ↔ k + 2 ≤ L - j := by
    intro k
    unfold IsFrame
    rw [hlen]
    constructor
    · rintro (h | h)
      · by_contra hc
        have := Nat.mul_le_mul_right (det.frameSize / 2) (show L - j ≤ k + 1 by omega)
        rw [Nat.add_mul] at this
        omega
      · omega
    · intro h
      have := Nat.mul_le_mul_right (det.frameSize / 2) h
      rw [Nat.add_mul] at this
      left; omega
  have hsil : ∀ k, k + 2 ≤ L - j → (SilentFrame y det.frameSize (M.powf 10 (det.thresholdDb / 20)) k ↔
      SilentFrame x det.frameSize (M.powf 10 (det.thresholdDb / 20)) (j + k)) := by
    intro k hk
    unfold SilentFrame
    rw [hy, frame_piece]
    have := Nat.mul_le_mul_right (det.frameSize / 2) hk
    rw [Nat.add_mul] at this
    omega
  apply C104_unchanged M _ sr det hs h2
  · exact ⟨(hfr 0).2 (by omega), fun hc => hlj (by simpa using (hsil 0 (by omega)).1 hc)⟩
  · intro i i2 ⟨k1, k2, k3⟩
    exfalso
    have h5 := (hfr _).1 (k3 (i2 - 1) (by omega) (by omega)).1
    have h6 : ¬ (i2 + 2 ≤ L - j) := fun hc => k2 ((hfr _).2 hc)
    have h7 := (hsil _ h5).1 (k3 (i2 - 1) (by omega) (by omega)).2
    have : j + (i2 - 1) = L - 2 := by omega
    rw [this] at h7
    exact hl2.2 h7

/-- **C104 is violated by the code.** At the default threshold of -40 dB (amplitude 0.01) one frame is loud; the tail is
cut in the middle of it, and what is left counts as silence when trimmed again. -/
theorem C104_violated :
    detectAndTrim Libm.demo [0, 0, 0.009, 0.012, 0, 0] 44100 ⟨-40, 0, 2⟩ = .ok ([0.009], [(0, 2), (3, 6)]) ∧
    detectAndTrim Libm.demo [0.009] 44100 ⟨-40, 0, 2⟩ = .ok ([], [(0, 1)]) := by
  decide +kernel

/-- **C104 is violated by the code (a click after a pause).** Sound, a pause, one loud frame and silence: the second pass
removes the last frame together with the pause the first pass kept. -/
theorem C104_violated_pause :
    detectAndTrim Libm.demo [1, 1, 1, 0, 0, 0, 0.009, 0.012, 0, 0, 0] 4 ⟨-40, 500, 2⟩ =
      .ok ([1, 1, 1, 0, 0, 0, 0.009], [(3, 6), (7, 11)]) ∧
    detectAndTrim Libm.demo [1, 1, 1, 0, 0, 0, 0.009] 4 ⟨-40, 500, 2⟩ = .ok ([1, 1, 1], [(3, 7)]) := by
  decide +kernel

/-! Non-vacuity.  `C104_again_partial`: leading silence only. -/
example : ∃ y map, detectAndTrim Libm.demo [0, 0, 0, 1, 1, 0, 1] 4 ⟨-40, 500, 2⟩ = .ok (y, map) ∧
    y ≠ [0, 0, 0, 1, 1, 0, 1] ∧ ∀ s, (s, ([0, 0, 0, 1, 1, 0, 1] : List F32).length) ∉ map := by
  refine ⟨[0, 1, 1, 0, 1], [(0, 2)], by decide +kernel, by decide +kernel, ?_⟩
  intro s; simp

/-! `C104_sustained_partial`: frames 2, 3 and 4 are loud, the tail starts at frame 5. -/
example : ∃ y map, detectAndTrim Libm.demo [0, 0, 0, 1, 1, 0, 0, 0] 4 ⟨-40, 500, 2⟩ = .ok (y, map) ∧
    (5 * ((⟨-40, 500, 2⟩ : Detector).frameSize / 2), ([0, 0, 0, 1, 1, 0, 0, 0] : List F32).length) ∈ map ∧
    LoudFrame Libm.demo ⟨-40, 500, 2⟩ [0, 0, 0, 1, 1, 0, 0, 0] 4 ∧
    LoudFrame Libm.demo ⟨-40, 500, 2⟩ [0, 0, 0, 1, 1, 0, 0, 0] 3 :=
  ⟨[0, 1, 1], [(0, 2), (5, 8)], by decide +kernel, by simp,
    ⟨.inl (by simp), by unfold SilentFrame Silence.frame; decide +kernel⟩,
    ⟨.inl (by simp), by unfold SilentFrame Silence.frame; decide +kernel⟩⟩

/-! `C104_unchanged`, `C104_unchanged_iff`: the first frame is loud and the tail has one silent frame of 250 ms. -/
example : LoudFrame Libm.demo ⟨-40, 500, 2⟩ [1, 1, 0, 0] 0 ∧ ShortTail Libm.demo ⟨-40, 500, 2⟩ 4 [1, 1, 0, 0] := by
  have hl : ∀ k, k < 2 → ¬ SilentFrame [1, 1, 0, 0] 2 (Libm.demo.powf 10 (-40 / 20)) k := by
    unfold SilentFrame Silence.frame; decide +kernel
  refine ⟨⟨.inl (by simp), hl 0 (by omega)⟩, ?_⟩
  rintro i j ⟨h1, h2, h3⟩
  have hj : j = 3 := by
    have a := (h3 (j - 1) (by omega) (by omega)).1
    unfold IsFrame at a h2
    simp at a h2
    omega
  subst hj
  have hi : i = 2 := by
    by_contra hc
    exact hl 1 (by omega) (h3 1 (by omega) (by omega)).2
  subst hi
  have : (F32.ofNat 500 / 1000 * F32.ofNat 4).toUsize = 2 := by decide +kernel
  show (3 - 2) * (2 / 2) < (F32.ofNat 500 / 1000 * F32.ofNat 4).toUsize
  rw [this]; decide

end Verif.Props
