/-
Helper lemmas for silence trimming.
-/
import Verif.Model.Silence

namespace Verif.Silence
open Verif

theorem mapM_ok {α β} {l : List α} {f : α → R β} {g : α → β} (h : ∀ x ∈ l, f x = .ok (g x)) :
    l.mapM f = .ok (l.map g) := by
  induction l with
  | nil => rfl
  | cons a l ih =>
    rw [List.mapM_cons, h a (by simp)]
    simp only [R.ok_bind, ih (fun x hx => h x (by simp [hx])), R.pure_eq_ok, List.map_cons]

/-- Specification: `[i, j)` is a maximal run of silent frames. -/
def IsRun (S : List Bool) (i j : ℕ) : Prop :=
  i < j ∧ j ≤ S.length ∧ (∀ f, i ≤ f → f < j → S[f]? = some true) ∧
    (i = 0 ∨ S[i - 1]? = some false) ∧ (j = S.length ∨ S[j]? = some false)

theorem IsRun.unique_start {S : List Bool} {i i' j : ℕ} (h : IsRun S i j) (h' : IsRun S i' j) : i = i' := by
  obtain ⟨h1, _, h2, h3, _⟩ := h
  obtain ⟨h1', _, h2', h3', _⟩ := h'
  rcases Nat.lt_trichotomy i i' with hlt | heq | hgt
  · rcases h3' with h | h
    · omega
    · have := h2 (i' - 1) (by omega) (by omega); rw [this] at h; simp at h
  · exact heq
  · rcases h3 with h | h
    · omega
    · have := h2' (i - 1) (by omega) (by omega); rw [this] at h; simp at h

structure Inv (S : List Bool) (minF hop k : ℕ) (st : Walk) : Prop where
  mem : ∀ r, r ∈ st.regions ↔ ∃ i j, IsRun S i j ∧ j < k ∧ (i = 0 ∨ minF ≤ j - i) ∧ r = ⟨i * hop, j * hop⟩
  ord : st.regions.Pairwise (fun a b => a.stop < b.start)
  inS : st.inSilence = true → st.startFrame < k ∧ (∀ f, st.startFrame ≤ f → f < k → S[f]? = some true) ∧
      (st.startFrame = 0 ∨ S[st.startFrame - 1]? = some false)
  outS : st.inSilence = false → k = 0 ∨ S[k - 1]? = some false

theorem idx_starts {nf hop i : ℕ} (h : i < nf) : idx ((List.range nf).map (· * hop)) i = .ok (i * hop) := by
  rw [idx_ok (by simpa using h)]; simp

theorem walk_inv {n minF hop : ℕ} {S : List Bool} (hop0 : 0 < hop) :
    ∀ (rest : List Bool) (k : ℕ) (st : Walk), S.drop k = rest → k ≤ S.length → Inv S minF hop k st →
      ∃ st', walk n S.length minF ((List.range S.length).map (· * hop)) rest k st = .ok st' ∧
        Inv S minF hop S.length st' := by
  intro rest
  induction rest with
  | nil =>
    intro k st hd hk hinv
    have : k = S.length := by
      have := congrArg List.length hd; simp at this; omega
    subst this
    exact ⟨st, rfl, hinv⟩
  | cons b bs ih =>
    intro k st hd hk hinv
    have hlt : k < S.length := by
      have := congrArg List.length hd; simp at this; omega
    have hb : S[k]? = some b := by
      have := congrArg (fun l => l[0]?) hd
      simpa using this
    have hd' : S.drop (k + 1) = bs := by
      have := congrArg List.tail hd; simpa using this
    have key : ∃ st', walkStep n S.length minF ((List.range S.length).map (· * hop)) st k b = .ok st' ∧
        Inv S minF hop (k + 1) st' := by
      obtain ⟨hm, ho, hi, hout⟩ := hinv
      have hksub : k + 1 - 1 = k := rfl
      by_cases hsil : b = true
      · subst hsil
        have hmem' : ∀ r, r ∈ st.regions ↔ ∃ i j, IsRun S i j ∧ j < k + 1 ∧ (i = 0 ∨ minF ≤ j - i) ∧ r = ⟨i * hop, j * hop⟩ := by
          intro r; rw [hm]
          constructor
          · rintro ⟨i, j, h1, h2, h3⟩; exact ⟨i, j, h1, by omega, h3⟩
          · rintro ⟨i, j, h1, h2, h3⟩
            refine ⟨i, j, h1, ?_, h3⟩
            rcases Nat.lt_or_ge j k with h | h
            · exact h
            · have : j = k := by omega
              subst this
              rcases h1.2.2.2.2 with h | h
              · omega
              · rw [hb] at h; simp at h
        by_cases hin : st.inSilence = true
        · refine ⟨st, by simp [walkStep, hin], hmem', ho, ?_, ?_⟩
          · intro _
            obtain ⟨h1, h2, h3⟩ := hi hin
            refine ⟨by omega, ?_, h3⟩
            intro f hf hf'
            rcases Nat.lt_or_ge f k with h | h
            · exact h2 f hf h
            · have : f = k := by omega
              subst this; exact hb
          · intro h; rw [hin] at h; simp at h
        · have hin' : st.inSilence = false := by simpa using hin
          refine ⟨{ st with inSilence := true, startFrame := k }, by simp [walkStep, hin'], hmem', ho, ?_, ?_⟩
          · intro _
            refine ⟨by simp, ?_, ?_⟩
            · intro f hf hf'
              have : f = k := by simp at hf; omega
              subst this; exact hb
            · exact hout hin'
          · intro h; simp at h
      · have hsil' : b = false := by simpa using hsil
        subst hsil'
        by_cases hin : st.inSilence = true
        · obtain ⟨h1, h2, h3⟩ := hi hin
          have hrun : IsRun S st.startFrame k := ⟨h1, by omega, h2, h3, .inr hb⟩
          by_cases hc : k - st.startFrame ≥ minF ∨ st.startFrame = 0 ∨ k = S.length
          · refine ⟨{ st with regions := st.regions ++ [⟨st.startFrame * hop, k * hop⟩], inSilence := false }, ?_, ?_, ?_, ?_, ?_⟩
            · simp only [walkStep, hin]
              rw [if_neg (by simp), if_pos (by simp), if_pos hc]
              rw [idx_starts (by omega)]
              have : k < ((List.range S.length).map (· * hop)).length := by simpa using hlt
              simp only [R.ok_bind, if_pos this, idx_starts hlt, R.pure_eq_ok]
            · intro r
              simp only [List.mem_append, List.mem_singleton]
              constructor
              · rintro (h | h)
                · obtain ⟨i, j, h1, h2, h3⟩ := (hm r).1 h
                  exact ⟨i, j, h1, by omega, h3⟩
                · exact ⟨_, _, hrun, by omega, by omega, h⟩
              · rintro ⟨i, j, g1, g2, g3, g4⟩
                rcases Nat.lt_or_ge j k with h | h
                · exact .inl ((hm r).2 ⟨i, j, g1, h, g3, g4⟩)
                · have : j = k := by omega
                  subst this
                  have := g1.unique_start hrun
                  subst this
                  exact .inr g4
            · simp only [List.pairwise_append, List.mem_singleton, forall_eq]
              refine ⟨ho, by simp, ?_⟩
              intro r hr
              obtain ⟨i, j, g1, g2, _, rfl⟩ := (hm r).1 hr
              have : j < st.startFrame := by
                by_contra hcon
                have h5 := h2 j (by omega) g2
                rcases g1.2.2.2.2 with h | h
                · omega
                · rw [h5] at h; simp at h
              exact (Nat.mul_lt_mul_right hop0).2 this
            · intro h; simp at h
            · intro _; exact .inr hb
          · refine ⟨{ st with inSilence := false }, ?_, ?_, ho, ?_, ?_⟩
            · simp only [walkStep, hin]
              rw [if_neg (by simp), if_pos (by simp), if_neg hc]; rfl
            · intro r
              show r ∈ st.regions ↔ _
              rw [hm]
              constructor
              · rintro ⟨i, j, g1, g2, g3⟩; exact ⟨i, j, g1, by omega, g3⟩
              · rintro ⟨i, j, g1, g2, g3, g4⟩
                refine ⟨i, j, g1, ?_, g3, g4⟩
                rcases Nat.lt_or_ge j k with h | h
                · exact h
                · have : j = k := by omega
                  subst this
                  have := g1.unique_start hrun
                  subst this
                  exfalso; apply hc; omega
            · intro h; simp at h
            · intro _; exact .inr hb
        · have hin' : st.inSilence = false := by simpa using hin
          refine ⟨st, by simp [walkStep, hin'], ?_, ho, ?_, ?_⟩
          · intro r; rw [hm]
            constructor
            · rintro ⟨i, j, g1, g2, g3⟩; exact ⟨i, j, g1, by omega, g3⟩
            · rintro ⟨i, j, g1, g2, g3⟩
              refine ⟨i, j, g1, ?_, g3⟩
              rcases Nat.lt_or_ge j k with h | h
              · exact h
              · have : j = k := by omega
                subst this
                have h5 := g1.2.2.1 (j - 1) (by have := g1.1; omega) (by have := g1.1; omega)
                rcases hout hin' with h | h
                · have := g1.1; omega
                · rw [h5] at h; simp at h
          · intro h; rw [hin'] at h; simp at h
          · intro _; exact .inr hb
    obtain ⟨st', hs, hinv'⟩ := key
    obtain ⟨st'', hw, hinv''⟩ := ih (k + 1) st' hd' (by omega) hinv'
    refine ⟨st'', ?_, hinv''⟩
    simp only [walk, hs, R.ok_bind, hw]

/-- Specification of the silence map over frame decisions `S`: the maximal silent runs that are
leading or long enough, in order; a run that reaches the last frame extends to the end `n`. -/
theorem regionsOf_spec {n minF hop : ℕ} {S : List Bool} (hop0 : 0 < hop) :
    ∃ rs, regionsOf n S.length minF hop S = .ok rs ∧
      (∀ r, r ∈ rs ↔ ∃ i j, IsRun S i j ∧ (i = 0 ∨ minF ≤ j - i) ∧
        r = ⟨i * hop, if j = S.length then n else j * hop⟩) ∧
      rs.Pairwise (fun a b => a.stop < b.start) := by
  have h0 : Inv S minF hop 0 ⟨[], false, 0⟩ := by
    refine ⟨?_, by simp, by simp, by simp⟩
    intro r; simp
  obtain ⟨st, hw, hm, ho, hi, hout⟩ := walk_inv (n := n) (minF := minF) hop0 S 0 _ (by simp) (by simp) h0
  unfold regionsOf
  simp only [hw, R.ok_bind]
  unfold finish
  -- a run closed by a loud frame, or reaching the end
  have hclosed : ∀ r, r ∈ st.regions ↔ ∃ i j, IsRun S i j ∧ (i = 0 ∨ minF ≤ j - i) ∧ j < S.length ∧
        r = ⟨i * hop, if j = S.length then n else j * hop⟩ := by
    intro r; rw [hm]
    constructor
    · rintro ⟨i, j, g1, g2, g3, g4⟩
      exact ⟨i, j, g1, g3, g2, by rw [if_neg (by omega)]; exact g4⟩
    · rintro ⟨i, j, g1, g3, g2, g4⟩
      rw [if_neg (by omega)] at g4
      exact ⟨i, j, g1, g2, g3, g4⟩
  by_cases hin : st.inSilence = true
  · obtain ⟨h1, h2, h3⟩ := hi hin
    have hrun : IsRun S st.startFrame S.length := ⟨h1, by omega, h2, h3, .inl rfl⟩
    rw [if_pos hin]
    by_cases hc : S.length - st.startFrame ≥ minF ∨ st.startFrame = 0
    · rw [if_pos hc]
      rw [idx_starts (by omega)]
      refine ⟨_, rfl, ?_, ?_⟩
      · intro r
        simp only [List.mem_append, List.mem_singleton]
        rw [hclosed]
        constructor
        · rintro (⟨i, j, g1, g2, _, g4⟩ | h)
          · exact ⟨i, j, g1, g2, g4⟩
          · exact ⟨_, _, hrun, by omega, by rw [if_pos rfl]; exact h⟩
        · rintro ⟨i, j, g1, g2, g4⟩
          rcases Nat.lt_or_ge j S.length with h | h
          · exact .inl ⟨i, j, g1, g2, h, g4⟩
          · have : j = S.length := by have := g1.2.1; omega
            subst this
            have := g1.unique_start hrun
            subst this
            rw [if_pos rfl] at g4
            exact .inr g4
      · simp only [List.pairwise_append, List.mem_singleton, forall_eq]
        refine ⟨ho, by simp, ?_⟩
        intro r hr
        obtain ⟨i, j, g1, g2, _, rfl⟩ := (hm r).1 hr
        have : j < st.startFrame := by
          by_contra hcon
          have h5 := h2 j (by omega) g2
          rcases g1.2.2.2.2 with h | h
          · omega
          · rw [h5] at h; simp at h
        exact (Nat.mul_lt_mul_right hop0).2 this
    · rw [if_neg hc]
      refine ⟨_, rfl, ?_, ho⟩
      intro r; rw [hclosed]
      constructor
      · rintro ⟨i, j, g1, g2, _, g4⟩; exact ⟨i, j, g1, g2, g4⟩
      · rintro ⟨i, j, g1, g2, g4⟩
        rcases Nat.lt_or_ge j S.length with h | h
        · exact ⟨i, j, g1, g2, h, g4⟩
        · have : j = S.length := by have := g1.2.1; omega
          subst this
          have := g1.unique_start hrun
          subst this
          exfalso; apply hc; omega
  · have hin' : st.inSilence = false := by simpa using hin
    rw [if_neg hin]
    refine ⟨_, rfl, ?_, ho⟩
    intro r; rw [hclosed]
    constructor
    · rintro ⟨i, j, g1, g2, _, g4⟩; exact ⟨i, j, g1, g2, g4⟩
    · rintro ⟨i, j, g1, g2, g4⟩
      refine ⟨i, j, g1, g2, ?_, g4⟩
      rcases Nat.lt_or_ge j S.length with h | h
      · exact h
      · exfalso
        have hj : j = S.length := by have := g1.2.1; omega
        subst hj
        have h5 := g1.2.2.1 (S.length - 1) (by have := g1.1; omega) (by have := g1.1; omega)
        rcases hout hin' with h | h
        · have := g1.1; omega
        · rw [h5] at h; simp at h

theorem numFrames_bound {n fs hop i : ℕ} (hop0 : 0 < hop) (hi : i < numFrames n fs hop) :
    (fs ≤ n → i * hop + fs ≤ n) ∧ (n < fs → i = 0) := by
  unfold numFrames at hi
  constructor
  · intro h
    rw [if_pos h] at hi
    have h1 : i ≤ (n - fs) / hop := by omega
    have := (Nat.le_div_iff_mul_le hop0).1 h1
    omega
  · intro h
    rw [if_neg (by omega)] at hi
    omega

/-- Specification: the `i`-th analysis frame of the signal. -/
def frame (samples : List F32) (frameSize i : ℕ) : List F32 :=
  (samples.drop (i * (frameSize / 2))).take frameSize

theorem frameRmsAt_ok {samples : List F32} {fs i : ℕ} (h2 : 2 ≤ fs)
    (hi : i < numFrames samples.length fs (fs / 2)) :
    frameRmsAt samples fs (fs / 2) i = .ok (frameRms (frame samples fs i)) := by
  have hop0 : 0 < fs / 2 := by omega
  have hb := numFrames_bound hop0 hi
  unfold frameRmsAt frame
  rcases Nat.lt_or_ge samples.length fs with h | h
  · have : i = 0 := hb.2 h
    subst this
    have e : Nat.min (0 * (fs / 2) + fs) samples.length = samples.length := by
      simp only [Nat.zero_mul, Nat.zero_add]; exact Nat.min_eq_right (by omega)
    dsimp only
    rw [e, slice_ok (by omega) (by omega)]
    simp only [R.ok_bind, R.pure_eq_ok, Nat.zero_mul, List.drop_zero, Nat.sub_zero]
    rw [List.take_of_length_le (by omega), List.take_of_length_le (by omega)]
  · have hb1 := hb.1 h
    have e : Nat.min (i * (fs / 2) + fs) samples.length = i * (fs / 2) + fs := Nat.min_eq_left hb1
    dsimp only
    rw [e, slice_ok (by omega) (by omega)]
    simp only [R.ok_bind, R.pure_eq_ok]
    congr 4; omega

theorem trimBounds_le (n : ℕ) (rs : List Region) (h : ∀ r ∈ rs, r.start ≤ n) :
    (trimBounds n rs).1 ≤ (trimBounds n rs).2 ∧ (trimBounds n rs).2 ≤ n := by
  unfold trimBounds
  dsimp only
  constructor
  · exact Nat.le_max_right _ _
  · have h1 : (match rs.getLast? with | some r => if r.stop = n then r.start else n | none => n) ≤ n := by
      split
      · rename_i r hr
        have := h r (List.mem_of_getLast? hr)
        split_ifs <;> omega
      · omega
    exact Nat.max_le.2 ⟨h1, (Nat.min_le_right _ _).trans h1⟩

end Verif.Silence
