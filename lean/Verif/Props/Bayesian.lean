/-
C37: Bayesian tempo updates.
-/
import Verif.F32.Bounds
import Verif.Lemmas.Beat

namespace Verif.Props
open Verif Verif.Beat F32

/-! ### helper lemmas -/

theorem lit05 : ∃ h, (0.5 : F32) = fin (1 / 2) h := ⟨by decide +kernel, by decide +kernel⟩
theorem lit60 : ∃ h, (60 : F32) = fin 60 h := ⟨by decide +kernel, by decide +kernel⟩
theorem lit180 : ∃ h, (180 : F32) = fin 180 h := ⟨by decide +kernel, by decide +kernel⟩

theorem cand_progress {v : ℚ} {hv} (h60 : 60 ≤ v) (h180 : v ≤ 180) :
    ∃ w hw, (fin v hv : F32) + 0.5 = fin w hw ∧ v + 0.49 ≤ w := by
  obtain ⟨h5, e5⟩ := lit05
  rw [e5, add_fin]
  have hg : OnGrid (256 : ℚ) ∧ |(256 : ℚ)| < pow2 128 := by
    have := grid_nat (n := 256) (by norm_num); exact_mod_cast this
  obtain ⟨hq, he, _⟩ := rnd_finite_of_abs_le (q := v + 1 / 2) hg (by rw [_root_.abs_of_nonneg (by linarith)]; linarith)
  refine ⟨_, hq, he, ?_⟩
  have := rndQ_down (q := v + 1 / 2) (by linarith)
  unfold eps eta at this
  norm_num at this ⊢
  nlinarith

theorem candLoop_ok {hi : F32} (hhi : hi ≤ 180) : ∀ (fuel : ℕ) (v : ℚ) (hv), 60 ≤ v → 180 < v + 0.49 * fuel →
    ∃ l, candLoop hi (fuel + 1) (fin v hv) = .ok l
  | 0, v, hv, h60, h180 => by
    refine ⟨[], ?_⟩
    unfold candLoop
    rw [if_neg]
    intro hc
    obtain ⟨h, e⟩ := lit180
    have := F32.le_trans hc hhi
    rw [e] at this
    have := fin_le_fin.1 this
    norm_num at h180
    linarith
  | fuel + 1, v, hv, h60, h180 => by
    rw [candLoop]
    by_cases hc : fin v hv ≤ hi
    · rw [if_pos hc]
      obtain ⟨h, e⟩ := lit180
      have h1 := F32.le_trans hc hhi
      rw [e] at h1
      have h2 := fin_le_fin.1 h1
      obtain ⟨w, hw, e2, h3⟩ := cand_progress (hv := hv) h60 h2
      push_cast at h180
      obtain ⟨l, hl⟩ := candLoop_ok hhi fuel w hw (by norm_num at h3; linarith) (by norm_num at h3 h180 ⊢; linarith)
      exact ⟨fin v hv :: l, by rw [e2, hl]; rfl⟩
    · exact ⟨[], by rw [if_neg hc]⟩

theorem candLoop_mem {hi : F32} : ∀ (fuel : ℕ) (b : F32) (l : List F32), 60 ≤ b → b ≠ nan → hi ≤ 180 →
    candLoop hi fuel b = .ok l → ∀ c ∈ l, b ≤ c ∧ c ≤ hi
  | 0, b, l, _, _, _, h => by simp [candLoop] at h
  | fuel + 1, b, l, h60, hn, hhi, h => by
    rw [candLoop] at h
    by_cases hc : b ≤ hi
    · rw [if_pos hc] at h
      cases hr : candLoop hi fuel (b + 0.5) with
      | error e => rw [hr] at h; simp [Bind.bind, Except.bind] at h
      | ok r =>
        rw [hr] at h
        have h' : b :: r = l := Except.ok.inj h
        subst h'
        have hb : b ≤ b + 0.5 := le_add_right (F32.le_trans (by decide +kernel) h60) (by decide +kernel)
        intro c hcm
        rcases List.mem_cons.1 hcm with rfl | hcm
        · exact ⟨F32.le_refl hn, hc⟩
        · obtain ⟨i1, i2⟩ := candLoop_mem fuel _ r (F32.le_trans h60 hb) (ne_nan_right hb) hhi hr c hcm
          exact ⟨F32.le_trans hb i1, i2⟩
    · rw [if_neg hc] at h
      have := Except.ok.inj h
      subst this
      simp

theorem likelihood_total (M : Libm) (onsets : List F32) (bpm : F32) :
    (∃ e, likelihood M onsets bpm = R.err e) ∨ ∃ l, likelihood M onsets bpm = .ok l := by
  unfold likelihood
  by_cases h1 : bpm ≤ EPS
  · rw [if_pos h1]; exact Or.inl ⟨_, rfl⟩
  · rw [if_neg h1]
    cases onsets.head? with
    | none => exact Or.inr ⟨_, rfl⟩
    | some s =>
      dsimp only
      by_cases h2 : (0.05 : F32) * 0.05 ≤ EPS
      · rw [if_pos h2]; exact Or.inl ⟨_, rfl⟩
      · rw [if_neg h2]; exact Or.inr ⟨_, rfl⟩

theorem bestCand_total (M : Libm) (onsets : List F32) : ∀ (cs : List F32) (b : F32 × F32),
    (∃ e, bestCand M onsets cs b = R.err e) ∨ ∃ r, bestCand M onsets cs b = .ok r
  | [], b => Or.inr ⟨b, rfl⟩
  | c :: cs, b => by
    rw [bestCand]
    rcases likelihood_total M onsets c with ⟨e, h⟩ | ⟨l, h⟩
    · left; exact ⟨e, by rw [h]; rfl⟩
    · rw [h]; exact bestCand_total M onsets cs _

theorem bestCand_spec {M : Libm} {onsets : List F32} : ∀ {cs : List F32} {b r : F32 × F32},
    bestCand M onsets cs b = .ok r → 0 ≤ b.2 → 0 ≤ r.2 ∧ (r.1 = b.1 ∨ r.1 ∈ cs)
  | [], b, r, h, h0 => by have := Except.ok.inj h; subst this; exact ⟨h0, Or.inl rfl⟩
  | c :: cs, b, r, h, h0 => by
    rw [bestCand] at h
    cases hl : likelihood M onsets c with
    | error e => rw [hl] at h; simp [Bind.bind, Except.bind] at h
    | ok l =>
      rw [hl] at h
      change bestCand M onsets cs (if b.2 < l then (c, l) else b) = .ok r at h
      by_cases hlt : b.2 < l
      · rw [if_pos hlt] at h
        obtain ⟨i1, i2⟩ := bestCand_spec h (F32.le_trans h0 (F32.le_of_lt hlt))
        exact ⟨i1, Or.inr (by rcases i2 with i | i <;> simp [i])⟩
      · rw [if_neg hlt] at h
        obtain ⟨i1, i2⟩ := bestCand_spec h h0
        exact ⟨i1, i2.imp id (fun i => by simp [i])⟩

theorem cand_start {bpm : F32} (h : ¬ (bpm ≤ EPS ∨ 300 < bpm)) :
    60 ≤ F32.max (bpm - 5) 60 ∧ ∃ v hv, F32.max (bpm - 5) 60 = fin v hv ∧ 60 ≤ v := by
  obtain ⟨h60, e60⟩ := lit60
  have h1 : 60 ≤ F32.max (bpm - 5) 60 := le_max_right (by decide +kernel)
  refine ⟨h1, ?_⟩
  rcases max_eq_left_or_right (bpm - 5) 60 with h2 | h2
  · rcases bpm with _ | s | ⟨v, hv⟩
    · rw [h2] at h1; exact absurd h1 (by decide +kernel)
    · cases s
      · exact absurd (Or.inr (by decide +kernel)) h
      · exact absurd (Or.inl (by decide +kernel)) h
    · rw [h2] at h1 ⊢
      have h300 : fin v hv ≤ 300 := le_of_not_lt (by simp) (by decide +kernel) (fun hc => h (Or.inr hc))
      have h5 : fin v hv - 5 ≤ 300 := by
        rw [sub_eq]
        refine F32.le_trans (add_le_add h300 (F32.le_refl (by decide +kernel)) ?_ (by decide +kernel)) (by decide +kernel)
        exact add_fin_ne_nan rfl (by decide +kernel)
      have hf := isFinite_of_between (by decide +kernel) (by decide +kernel) h1 h5
      obtain ⟨w, hw, e⟩ := isFinite_iff.1 hf
      exact ⟨w, hw, e, by rw [e, e60] at h1; exact fin_le_fin.1 h1⟩
  · exact ⟨60, h60, by rw [h2, e60], by norm_num⟩

theorem bpmCandidates_ok {fuel : ℕ} {bpm : F32} (hf : 256 ≤ fuel) (h : ¬ (bpm ≤ EPS ∨ 300 < bpm)) :
    ∃ l, bpmCandidates fuel bpm = .ok l := by
  unfold bpmCandidates
  obtain ⟨_, v, hv, e, h60⟩ := cand_start h
  rw [e]
  obtain ⟨k, rfl⟩ : ∃ k, fuel = k + 1 := ⟨fuel - 1, by omega⟩
  have hk : (255 : ℚ) ≤ k := by exact_mod_cast (by omega : 255 ≤ k)
  exact candLoop_ok (min_le_right (by decide +kernel)) k v hv h60 (by norm_num; linarith)

/-- `q` is an admissible successor of the tempo `p`: unchanged, or inside [60,180] and at most 5 BPM away (in f32;
a NaN tempo may be followed by any tempo of the range). -/
def TempoStep (p q : F32) : Prop := q = p ∨ (60 ≤ q ∧ q ≤ 180 ∧ (p ≠ nan → p - 5 ≤ q ∧ q ≤ p + 5))

theorem update_spec {M : Libm} {fuel : ℕ} {b b' : Bayes} {onsets : List F32} {q c : F32}
    (h : b.update M fuel onsets = .ok (b', q, c)) :
    TempoStep b.bpm b'.bpm ∧ 0 ≤ b'.conf ∧ b'.conf ≤ 1 ∧ b'.history = b.history ++ [b'.bpm] ∧ q = b'.bpm ∧ c = b'.conf := by
  unfold Bayes.update at h
  by_cases h1 : onsets = []
  · rw [if_pos h1] at h; simp at h
  rw [if_neg h1] at h
  by_cases h2 : b.bpm ≤ EPS ∨ 300 < b.bpm
  · rw [if_pos h2] at h; simp at h
  rw [if_neg h2] at h
  cases hc : bpmCandidates fuel b.bpm with
  | error e => rw [hc] at h; simp [Bind.bind, Except.bind] at h
  | ok cs =>
    cases hb : bestCand M onsets cs (b.bpm, 0) with
    | error e => rw [hc] at h; simp [Bind.bind, Except.bind, hb] at h
    | ok r =>
      rw [hc] at h
      simp only [Bind.bind, Except.bind, hb, pure, Except.pure] at h
      have h' := Except.ok.inj h
      obtain ⟨s1, s2⟩ := bestCand_spec hb (F32.le_refl zero_ne_nan)
      generalize hpen : (if (r.1 - b.bpm).abs < 1 then (1 : F32) else if (r.1 - b.bpm).abs < 3 then 0.8 else 0.5) = pen at h'
      have hp : 0 < pen ∧ pen.isFinite = true := by
        rw [← hpen]; split_ifs <;> exact ⟨by decide +kernel, by decide +kernel⟩
      have hconf : 0 ≤ F32.min (r.2 * pen) 1 ∧ F32.min (r.2 * pen) 1 ≤ 1 := by
        have hnn : r.2 * pen ≠ nan := by
          obtain ⟨p, hpv, e⟩ := isFinite_iff.1 hp.2
          have hp0 : 0 < p := by have := hp.1; rw [e, zero_def] at this; exact fin_lt_fin.1 this
          rcases nonneg_cases s1 with e2 | ⟨v, hv, e2, _⟩
          · rw [e2, e, inf_mul_fin, if_neg hp0.ne']; simp
          · rw [e2]; exact mul_fin_ne_nan rfl hp.2
        exact ⟨F32.le_min (F32.mul_nonneg s1 (F32.le_of_lt hp.1) hnn) F32.zero_le_one, F32.min_le_right one_ne_nan⟩
      cases h'
      refine ⟨?_, hconf.1, hconf.2, rfl, rfl, rfl⟩
      rcases s2 with s2 | s2
      · exact Or.inl s2
      · right
        obtain ⟨m1, v, hv, m2, m3⟩ := cand_start h2
        obtain ⟨k1, k2⟩ := candLoop_mem fuel _ cs m1 (ne_nan_right m1) (F32.min_le_right (by decide +kernel)) hc _ s2
        refine ⟨F32.le_trans m1 k1, F32.le_trans k2 (F32.min_le_right (by decide +kernel)), fun hn => ?_⟩
        have hfin : b.bpm.isFinite = true := by
          rcases hbb : b.bpm with _ | s | ⟨v, hv⟩
          · exact absurd hbb hn
          · rw [hbb] at h2
            cases s
            · exact absurd (Or.inr (by decide +kernel)) h2
            · exact absurd (Or.inl (by decide +kernel)) h2
          · rfl
        have hs : b.bpm - 5 ≠ nan := sub_fin_ne_nan hfin (by decide +kernel)
        have ha : b.bpm + 5 ≠ nan := add_fin_ne_nan hfin (by decide +kernel)
        exact ⟨F32.le_trans (F32.le_max_left hs) k1, F32.le_trans k2 (F32.min_le_left ha)⟩

/-! ### the property -/

/-- The trackers reachable from `new seed conf` by any sequence of batches; a rejected batch leaves it unchanged. -/
inductive Reach (M : Libm) (fuel : ℕ) (seed conf : F32) : Bayes → Prop
  | new : Reach M fuel seed conf (Bayes.new seed conf)
  | ok {b b' onsets q c} : Reach M fuel seed conf b → b.update M fuel onsets = .ok (b', q, c) → Reach M fuel seed conf b'

/-- **C37**: along any sequence of updates the recorded tempi start with the seed and move only by admissible steps,
so the current one is the seed or in [60,180], and the confidence stays in [0,1]. -/
theorem C37_invariant (M : Libm) (fuel : ℕ) (seed conf : F32) (hc : conf ≠ nan) (b : Bayes)
    (h : Reach M fuel seed conf b) :
    b.history.head? = some seed ∧ b.history.getLast? = some b.bpm ∧ b.history.IsChain TempoStep ∧
    (b.bpm = seed ∨ (60 ≤ b.bpm ∧ b.bpm ≤ 180)) ∧ (∀ p ∈ b.history, p = seed ∨ (60 ≤ p ∧ p ≤ 180)) ∧
    0 ≤ b.conf ∧ b.conf ≤ 1 := by
  induction h with
  | new => exact ⟨rfl, rfl, by simp [Bayes.new], Or.inl rfl, by simp [Bayes.new], clamp01 hc⟩
  | @ok b b' onsets q c _ hu ih =>
    obtain ⟨i1, i2, i3, i4, i5, _, _⟩ := ih
    obtain ⟨s1, s2, s3, s4, _, _⟩ := update_spec hu
    have hnew : b'.bpm = seed ∨ (60 ≤ b'.bpm ∧ b'.bpm ≤ 180) := by
      rcases s1 with s | ⟨s, t, _⟩
      · rw [s]; exact i4
      · exact Or.inr ⟨s, t⟩
    refine ⟨?_, ?_, ?_, hnew, ?_, s2, s3⟩
    · rw [s4, List.head?_append, i1]; rfl
    · rw [s4, List.getLast?_append]; rfl
    · rw [s4, List.isChain_append]
      refine ⟨i3, by simp, ?_⟩
      intro x hx y hy
      rw [i2] at hx
      cases hx
      simp only [List.head?_cons, Option.mem_def, Option.some.injEq] at hy
      rw [← hy]; exact s1
    · intro p hp
      rw [s4] at hp
      rcases List.mem_append.1 hp with hp | hp
      · exact i5 p hp
      · rw [List.mem_singleton.1 hp]; exact hnew

/-- **C37**, single call: an update never panics and its candidate scan always ends; it is rejected when the batch is
empty or the current tempo is outside (1e-10, 300]; the returned pair is the new state. -/
theorem C37_update (M : Libm) (fuel : ℕ) (hf : 256 ≤ fuel) (b : Bayes) (onsets : List F32) :
    ((onsets = [] ∨ b.bpm ≤ 1e-10 ∨ 300 < b.bpm) → b.update M fuel onsets = R.err .invalidInput) ∧
    ((∃ e, b.update M fuel onsets = R.err e) ∨
      ∃ b', b.update M fuel onsets = .ok (b', b'.bpm, b'.conf) ∧ TempoStep b.bpm b'.bpm ∧ 0 ≤ b'.conf ∧ b'.conf ≤ 1) := by
  constructor
  · intro h
    unfold Bayes.update
    by_cases h1 : onsets = []
    · rw [if_pos h1]
    · rw [if_neg h1, if_pos (by rcases h with h | h; exact absurd h h1; exact h)]
  · have key : (∃ e, b.update M fuel onsets = R.err e) ∨ ∃ r, b.update M fuel onsets = .ok r := by
      unfold Bayes.update
      by_cases h1 : onsets = []
      · left; rw [if_pos h1]; exact ⟨_, rfl⟩
      rw [if_neg h1]
      by_cases h2 : b.bpm ≤ EPS ∨ 300 < b.bpm
      · left; rw [if_pos h2]; exact ⟨_, rfl⟩
      rw [if_neg h2]
      obtain ⟨cs, hc⟩ := bpmCandidates_ok hf h2
      rw [hc]
      rcases bestCand_total M onsets cs (b.bpm, 0) with ⟨e, hb⟩ | ⟨r, hb⟩
      · left; exact ⟨e, by simp only [Bind.bind, Except.bind, hb]⟩
      · right; simp only [Bind.bind, Except.bind, hb, pure, Except.pure]; exact ⟨_, rfl⟩
    rcases key with h | ⟨⟨b', q, c⟩, h⟩
    · exact Or.inl h
    · obtain ⟨s1, s2, s3, _, rfl, rfl⟩ := update_spec h
      exact Or.inr ⟨b', h, s1, s2, s3⟩

/-- non-vacuity: an update that moves the tempo, giving a reachable tracker other than the seed -/
example : Reach Libm.demo 256 100 0.5 ⟨95, 0.25, [100, 95]⟩ := by
  refine Reach.ok (b := Bayes.new 100 0.5) (onsets := [0, 0.588, 1.176]) (q := 95) (c := 0.25) Reach.new ?_
  decide +kernel

end Verif.Props
