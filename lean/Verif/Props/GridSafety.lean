/-
C28 (each beat once: refuted), C29 (no panic) and C30 (grid stability).
-/
import Verif.F32.Sqrt
import Verif.Props.Grid
import Verif.Props.Tracking

namespace Verif.Props
open Verif Verif.Beat F32

/-! ### C28 -/

/-- frames are strictly ordered in time -/
theorem frameTime_lt {p f : ℚ} {hp hf} (hp0 : EPS.val < p) (hp3 : p ≤ 300) (hf1 : -65536 ≤ f) (hf2 : f ≤ 65536)
    {t t' : ℕ} (ht : t < t') (ht' : t' ≤ 2 ^ 20) : frameTime (fin p hp) (fin f hf) t < frameTime (fin p hp) (fin f hf) t' := by
  obtain ⟨h6, e6⟩ : ∃ h, (60 : F32) = fin 60 h := ⟨by decide +kernel, by decide +kernel⟩
  have hEp : (1 / 2 ^ 34 : ℚ) < EPS.val := by decide +kernel
  have hpp : 0 < p := by
    have : (0:ℚ) < 1 / 2 ^ 34 := by norm_num
    linarith
  have hr1 : (1 / 5 : ℚ) ≤ 60 / p := by rw [le_div_iff₀ hpp]; linarith
  have hr2 : 60 / p ≤ 2 ^ 40 := by
    rw [div_le_iff₀ hpp]
    have : (60 : ℚ) ≤ 2 ^ 40 * (1 / 2 ^ 34) := by norm_num
    linarith
  have hgrid : ∀ e : ℤ, -149 ≤ e → e < 128 → OnGrid (pow2 e) ∧ |pow2 e| < pow2 128 := fun e he he2 =>
    ⟨onGrid_pow2 he, by rw [abs_of_pos (pow2_pos _)]; exact pow2_lt he2⟩
  have hp70 : pow2 70 = 2 ^ 70 := by have := pow2_nat 70; exact_mod_cast this
  unfold frameTime
  rw [e6, div_fin hpp.ne', ofNat_exact (by omega), ofNat_exact (by omega)]
  obtain ⟨hI, eI, bI⟩ := rnd_finite_of_abs_le (q := 60 / p) (hgrid 70 (by norm_num) (by norm_num))
    (by rw [hp70, abs_of_nonneg (by positivity)]; norm_num at hr2 ⊢; linarith)
  rw [eI]
  have hIu := rndQ_up (q := 60 / p) (by positivity)
  have hId := rndQ_down (q := 60 / p) (by positivity)
  generalize rndQ (60 / p) = I at *
  unfold eps eta at hIu hId
  norm_num at hIu hId
  have hI0 : (19 / 100 : ℚ) ≤ I := by linarith
  have hI2 : I ≤ 2 ^ 41 := by norm_num at hr2 ⊢; linarith
  clear hIu hId
  -- products
  have hprod : ∀ s : ℕ, s ≤ 2 ^ 20 → ∀ hg, ∃ w hw, (fin (s : ℚ) hg : F32) * fin I hI = fin w hw ∧
      |w - s * I| ≤ s * I / 10 ^ 7 + 1 / 10 ^ 9 ∧ w ≤ 2 ^ 62 ∧ 0 ≤ w := by
    intro s hs hg
    have hs' : (s : ℚ) ≤ 2 ^ 20 := by exact_mod_cast hs
    have hs0 : (0 : ℚ) ≤ s := by positivity
    have h0 : 0 ≤ (s : ℚ) * I := by positivity
    have hle : (s : ℚ) * I ≤ 2 ^ 61 := by
      have := _root_.mul_le_mul hs' hI2 (by linarith) (by norm_num)
      norm_num at this ⊢; linarith
    rw [mul_fin]
    obtain ⟨hq, e, b⟩ := rnd_finite_of_abs_le (q := (s : ℚ) * I) (hgrid 70 (by norm_num) (by norm_num))
      (by rw [hp70, abs_of_nonneg h0]; norm_num at hle ⊢; linarith)
    refine ⟨_, hq, e, ?_, ?_, rndQ_nonneg h0⟩
    · have := rndQ_err ((s : ℚ) * I)
      rw [abs_of_nonneg h0] at this
      unfold eps eta at this
      norm_num at this ⊢; linarith
    · have := rndQ_up h0
      unfold eps eta at this
      norm_num at this hle ⊢; linarith
  obtain ⟨w, hw, e1, b1, c1, d1⟩ := hprod t (by omega) (grid_nat (by omega))
  obtain ⟨w', hw', e2, b2, c2, d2⟩ := hprod t' ht' (grid_nat (by omega))
  rw [e1, e2, add_fin, add_fin]
  have habs : ∀ u : ℚ, u ≤ 2 ^ 62 → 0 ≤ u → |f + u| ≤ 65536 + u := by
    intro u _ _; rw [_root_.abs_le]; constructor <;> linarith
  obtain ⟨hq, e3, _⟩ := rnd_finite_of_abs_le (q := f + w) (hgrid 70 (by norm_num) (by norm_num))
    (by rw [hp70]; have := habs w c1 d1; norm_num at this c1 ⊢; linarith)
  obtain ⟨hq', e4, _⟩ := rnd_finite_of_abs_le (q := f + w') (hgrid 70 (by norm_num) (by norm_num))
    (by rw [hp70]; have := habs w' c2 d2; norm_num at this c2 ⊢; linarith)
  rw [e3, e4]
  apply fin_lt_fin.2
  have g1 := rndQ_err (f + w)
  have g2 := rndQ_err (f + w')
  have k1 := habs w c1 d1
  have k2 := habs w' c2 d2
  unfold eps eta at g1 g2
  norm_num at g1 g2 b1 b2
  have m1 := _root_.abs_le.1 g1
  have m2 := _root_.abs_le.1 g2
  have m3 := _root_.abs_le.1 b1
  have m4 := _root_.abs_le.1 b2
  have hT : (t : ℚ) + 1 ≤ t' := by exact_mod_cast ht
  have hT2 : (t' : ℚ) ≤ 2 ^ 20 := by exact_mod_cast ht'
  have hI1 : (t : ℚ) * I + I ≤ t' * I := by nlinarith
  have hI3 : (t' : ℚ) * I ≤ 2 ^ 20 * I := _root_.mul_le_mul_of_nonneg_right hT2 (by linarith)
  norm_num at hI3
  generalize (t : ℚ) * I = A at *
  generalize (t' : ℚ) * I = A' at *
  generalize rndQ (f + w) = X at *
  generalize rndQ (f + w') = X' at *
  linarith [m1.1, m1.2, m2.1, m2.2, m3.1, m3.2, m4.1, m4.2]

theorem ceil_le {x : F32} {N : ℕ} {h} (hx : x ≤ fin (N : ℚ) h) : (F32.ceil x).toUsize ≤ N := by
  rcases x with _ | s | ⟨v, hv⟩
  · exact absurd rfl (ne_nan_left hx)
  · cases s
    · rw [le_def] at hx
      have := hx.2.2
      simp [toW] at this
    · simp [F32.ceil, F32.toUsize]
  · have hv' := fin_le_fin.1 hx
    have h1 : F32.ceil (fin v hv) ≤ fin (N : ℚ) h := by
      show rnd _ ≤ _
      apply rnd_le_fin
      have : ⌈v⌉ ≤ (N : ℤ) := Int.ceil_le.2 (by exact_mod_cast hv')
      exact_mod_cast this
    generalize F32.ceil (fin v hv) = y at h1
    rcases y with _ | s | ⟨w, hw⟩
    · exact absurd rfl (ne_nan_left h1)
    · cases s
      · rw [le_def] at h1
        have := h1.2.2
        simp [toW] at this
      · simp [F32.toUsize]
    · have hw' := fin_le_fin.1 h1
      show Nat.min ⌊w⌋.toNat usizeMax ≤ N
      refine _root_.le_trans (Nat.min_le_left _ _) ?_
      have : ⌊w⌋ ≤ (N : ℤ) := by
        have h2 : (⌊w⌋ : ℚ) ≤ N := _root_.le_trans (Int.floor_le w) hw'
        exact_mod_cast h2
      omega

/-- bound on the number of frames -/
theorem frames_le {p f l : ℚ} {hp hf hl} (hp0 : EPS.val < p) (hp3 : p ≤ 300) {k : ℕ} (hk : k ≤ 60)
    (hd : l - f ≤ 2 ^ k) : (F32.ceil ((fin l hl - fin f hf) / (60 / fin p hp))).toUsize ≤ 2 ^ (k + 3) := by
  obtain ⟨h6, e6⟩ : ∃ h, (60 : F32) = fin 60 h := ⟨by decide +kernel, by decide +kernel⟩
  have hEp : (1 / 2 ^ 34 : ℚ) < EPS.val := by decide +kernel
  have hpp : 0 < p := by
    have : (0:ℚ) < 1 / 2 ^ 34 := by norm_num
    linarith
  have hgrid : ∀ e : ℕ, e < 128 → OnGrid ((2 : ℚ) ^ e) ∧ |(2 : ℚ) ^ e| < pow2 128 := fun e he => by
    rw [← pow2_nat]
    exact ⟨onGrid_pow2 (by omega), by rw [abs_of_pos (pow2_pos _)]; exact pow2_lt (by omega)⟩
  have hr2 : 60 / p ≤ 2 ^ 40 := by
    rw [div_le_iff₀ hpp]
    have : (60 : ℚ) ≤ 2 ^ 40 * (1 / 2 ^ 34) := by norm_num
    linarith
  have hr1 : (1 / 5 : ℚ) ≤ 60 / p := by rw [le_div_iff₀ hpp]; linarith
  rw [e6, div_fin hpp.ne']
  obtain ⟨hI, eI, bI⟩ := rnd_finite_of_abs_le (q := 60 / p) (hgrid 40 (by norm_num))
    (by rw [abs_of_nonneg (by positivity)]; exact hr2)
  rw [eI]
  have hId := rndQ_down (q := 60 / p) (by positivity)
  unfold eps eta at hId
  norm_num at hId
  have hI8 : 1 / 8 ≤ rndQ (60 / p) := by linarith
  generalize rndQ (60 / p) = I at *
  have hg3 := hgrid (k + 3) (by omega)
  have hx : (fin l hl - fin f hf : F32) ≤ fin (2 ^ k) (hgrid k (by omega)) := by rw [sub_fin]; exact rnd_le_fin hd
  have h2 : ((2 : ℚ) ^ (k + 3)) = ((2 ^ (k + 3) : ℕ) : ℚ) := by push_cast; ring
  have hmain : (fin l hl - fin f hf : F32) / fin I hI ≤ fin (2 ^ (k + 3)) hg3 := by
    generalize (fin l hl - fin f hf : F32) = x at hx
    have hI0 : (0 : ℚ) < I := by linarith
    rcases x with _ | s | ⟨v, hv⟩
    · exact absurd rfl (ne_nan_left hx)
    · cases s
      · rw [le_def] at hx
        have := hx.2.2
        simp [toW] at this
      · rw [inf_div_fin, le_def]
        simp [toW, not_lt.2 hI0.le]
    · rw [div_fin hI0.ne']
      apply rnd_le_fin
      have hv' := fin_le_fin.1 hx
      rw [div_le_iff₀ hI0]
      have : (2:ℚ) ^ (k + 3) * (1 / 8) = 2 ^ k := by rw [pow_add]; ring
      have h3 := _root_.mul_le_mul_of_nonneg_left hI8 (by positivity : (0:ℚ) ≤ 2 ^ (k + 3))
      linarith
  have hg4 : OnGrid ((2 ^ (k + 3) : ℕ) : ℚ) ∧ |((2 ^ (k + 3) : ℕ) : ℚ)| < pow2 128 := by rw [← h2]; exact hg3
  refine ceil_le (h := hg4) ?_
  simp only [← h2]
  exact hmain

theorem track_times_nodup {M : Libm} {bpm : F32} {onsets : List F32} {beats : List BeatPos}
    (h : trackBeats M bpm onsets = .ok beats) (hbpm : bpm ≠ nan) (ho : ∀ o ∈ onsets, -65536 ≤ o ∧ o ≤ 65536) :
    (beats.map BeatPos.time).Nodup := by
  have hb : ¬ (bpm ≤ EPS ∨ 300 < bpm) := by
    intro hc; unfold trackBeats at h; rw [if_pos hc] at h; simp at h
  have hne : onsets ≠ [] := by
    rintro rfl; unfold trackBeats at h; rw [if_neg hb] at h; simp at h
  obtain ⟨first, hf⟩ : ∃ a, onsets.head? = some a := by
    cases onsets with
    | nil => exact absurd rfl hne
    | cons a l => exact ⟨a, rfl⟩
  have hl : onsets.getLast? = some (onsets.getLast hne) := List.getLast?_eq_some_getLast hne
  rw [trackBeats_eq hb hf hl] at h
  obtain ⟨hP, eP⟩ : ∃ h, (65536 : F32) = fin 65536 h := ⟨by decide +kernel, by decide +kernel⟩
  obtain ⟨hN, eN⟩ : ∃ h, (-65536 : F32) = fin (-65536) h := ⟨by decide +kernel, by decide +kernel⟩
  rw [eN, eP] at ho
  obtain ⟨f1, f2⟩ := ho first (List.mem_of_mem_head? hf)
  obtain ⟨l1, l2⟩ := ho (onsets.getLast hne) (List.getLast_mem hne)
  obtain ⟨f, hfv, rfl, f1, f2⟩ := between_cases f1 f2
  generalize onsets.getLast hne = last at *
  obtain ⟨l, hlv, rfl, l1, l2⟩ := between_cases l1 l2
  push Not at hb
  have hlo := F32.le_of_lt (lt_of_not_le (by decide +kernel) hbpm hb.1)
  have hhi := le_of_not_lt hbpm (by decide +kernel) hb.2
  obtain ⟨hE, eE⟩ : ∃ h, EPS = fin EPS.val h := ⟨by decide +kernel, by decide +kernel⟩
  obtain ⟨h3, e3⟩ : ∃ h, (300 : F32) = fin 300 h := ⟨by decide +kernel, by decide +kernel⟩
  rw [eE] at hlo; rw [e3] at hhi
  obtain ⟨p, hp, rfl, p1, p2⟩ := between_cases hlo hhi
  have p1' : EPS.val < p := by
    rcases p1.lt_or_eq with h | h
    · exact h
    · exfalso; apply hb.1; rw [eE]; exact fin_le_fin.2 h.ge
  cases hn : numFrames (fin p hp) (fin f hfv) (fin l hlv) with
  | error e => rw [hn] at h; simp [Except.bind] at h
  | ok n =>
    rw [hn] at h
    have hle : n ≤ 2 ^ 20 + 1 := by
      have := frames_le (hp := hp) (hf := hfv) (hl := hlv) p1' p2 (k := 17) (by norm_num) (by norm_num; linarith)
      unfold numFrames at hn
      dsimp only at hn
      split_ifs at hn
      have := Except.ok.inj hn
      omega
    obtain ⟨_, hperm, _⟩ := sortAscP_ok (key := BeatPos.time) h
    rw [(hperm.map BeatPos.time).nodup_iff]
    have hpw : (lattice M (fin p hp) (fin f hfv) onsets n).Pairwise (fun a b => a.time ≠ b.time) := by
      unfold lattice
      rw [List.pairwise_filterMap]
      refine List.Pairwise.imp_of_mem ?_ (List.pairwise_lt_range (n := n))
      intro t t' ht ht' hlt b hb b' hb'
      have h1 := (beatAt_conf hb).1
      have h2 := (beatAt_conf hb').1
      have hlt' : t' < n := List.mem_range.1 ht'
      have := frameTime_lt (hp := hp) (hf := hfv) p1' p2 f1 f2 hlt (by omega)
      rw [← h1, ← h2] at this
      intro he
      rw [he] at this
      exact F32.lt_irrefl _ this
    rw [List.Nodup, List.pairwise_map]
    exact hpw

/-- **C28** (partial: only when no tempo segment is flagged variable, so that no refinement runs, and for onsets within
65536 s): the beats of the grid are strictly increasing.  With refinement the claim is false, see `C28_violated`. -/
theorem C28_beats_once_partial (M : Libm) (fuel : ℕ) (bpm conf : F32) (onsets : List F32) (g : Grid) (st : F32)
    (h : beatGrid M fuel bpm conf onsets = .ok (g, st)) (hbpm : bpm ≠ nan) (ho : ∀ o ∈ onsets, -65536 ≤ o ∧ o ≤ 65536)
    (hvar : ∀ sorted beats segs, sortAscP id onsets = .ok sorted → trackBeats M bpm sorted = .ok beats →
      tempoSegments fuel (beats.map BeatPos.time) bpm = .ok segs → ∀ s ∈ segs, s.isVar = false) :
    g.beats.Pairwise (· < ·) := by
  obtain ⟨_, sorted, beats, segs, beats', sig, c, h1, h2, _, h4, h5, _, h7, _⟩ := beatGrid_ok h
  have hv : hasVariation segs = false := by
    unfold hasVariation
    rw [List.any_eq_false]
    intro s hs
    rw [hvar sorted beats segs h1 h2 h4 s hs]; simp
  rw [h5 hv] at h7
  obtain ⟨_, g2, g3, _⟩ := gridOf_spec h7
  obtain ⟨_, hperm, _⟩ := sortAscP_ok h1
  have hnd := track_times_nodup h2 hbpm (fun o ho' => ho o (hperm.mem_iff.1 ho'))
  have hnd' : g.beats.Nodup := g3.nodup_iff.2 hnd
  refine (g2.and hnd').imp ?_
  intro a b hab
  exact lt_of_not_le (ne_nan_left hab.1) (ne_nan_right hab.1) (fun hc => hab.2 (F32.le_antisymm hab.1 hc))

/-- non-vacuity: a regular track, none of its segments flagged -/
example : (∀ o ∈ ([0, 0.5, 1, 1.5, 2, 2.5, 3] : List F32), -65536 ≤ o ∧ o ≤ 65536) ∧
    (match tempoSegments 300 [0, 0.5, 1, 1.5, 2, 2.5, 3] 120 with
      | .ok segs => segs.map (·.isVar) | .error _ => []) = [false, false] := by decide +kernel

/-- **C28 violated**: twelve onsets, one of them missing a beat, make the tempo look variable; the overlapping segments
then report most beats two or three times. -/
theorem C28_violated : ∃ (M : Libm) (onsets : List F32) (g : Grid) (st : F32),
    beatGrid M 300 60 1 onsets = .ok (g, st) ∧ ¬ g.beats.Pairwise (· < ·) := by
  have h : (match beatGrid Libm.demo 300 60 1 [0, 1, 2, 3, 4, 5, 6, 7, 8, 9, 11, 12] with
    | .ok (g, _) => decide (¬ g.beats.Pairwise (· < ·)) | .error _ => false) = true := by decide +kernel
  cases hr : beatGrid Libm.demo 300 60 1 [0, 1, 2, 3, 4, 5, 6, 7, 8, 9, 11, 12] with
  | error e => rw [hr] at h; simp at h
  | ok r =>
    rw [hr] at h
    exact ⟨Libm.demo, _, r.1, r.2, hr, of_decide_eq_true h⟩

/-! ### C29 -/

/-- **C29 violated**: a NaN onset, or an infinite one, makes the call panic instead of returning an error. -/
theorem C29_violated : beatGrid Libm.demo 300 120 1 [0, nan] = R.panic ∧ beatGrid Libm.demo 300 120 1 [0, inf false] = R.panic := by
  decide +kernel

/-- times accepted by the partial theorem: up to ten million seconds (115 days) -/
def InRange (t : F32) : Prop := -10000000 ≤ t ∧ t ≤ 10000000

theorem near_bounded {o t : F32} (ho : InRange o) (h : (o - t).abs ≤ 0.054) :
    -16777216 ≤ t ∧ t ≤ 16777216 := by
  obtain ⟨hP, eP⟩ : ∃ h, (10000000 : F32) = fin 10000000 h := ⟨by decide +kernel, by decide +kernel⟩
  obtain ⟨hN, eN⟩ : ∃ h, (-10000000 : F32) = fin (-10000000) h := ⟨by decide +kernel, by decide +kernel⟩
  obtain ⟨hB, eB⟩ : ∃ h, (16777216 : F32) = fin 16777216 h := ⟨by decide +kernel, by decide +kernel⟩
  obtain ⟨hA, eA⟩ : ∃ h, (-16777216 : F32) = fin (-16777216) h := ⟨by decide +kernel, by decide +kernel⟩
  unfold InRange at ho
  rw [eN, eP] at ho
  obtain ⟨x, hx, rfl, x1, x2⟩ := between_cases ho.1 ho.2
  rw [eA, eB]
  rcases t with _ | s | ⟨w, hw⟩
  · exact absurd h (by simp [le_def])
  · exfalso
    have : (fin x hx - inf s).abs = inf false := by cases s <;> rfl
    rw [this] at h
    exact absurd h (by decide +kernel)
  · rw [sub_fin, abs_rnd] at h
    by_cases hc : 2 ≤ |x - w|
    · exfalso
      have h2 : rnd 2 ≤ rnd |x - w| := rnd_mono hc
      exact absurd (F32.le_trans h2 h) (by decide +kernel)
    · have := abs_lt.1 (not_le.1 hc)
      exact ⟨fin_le_fin.2 (by linarith [this.1, this.2]), fin_le_fin.2 (by linarith [this.1, this.2])⟩

theorem frames_ok {bpm f l : F32} (hb : ¬ (bpm ≤ EPS ∨ 300 < bpm)) (hf : InRange f) (hl : InRange l) :
    ∃ n, numFrames bpm f l = .ok n := by
  obtain ⟨hP, eP⟩ : ∃ h, (10000000 : F32) = fin 10000000 h := ⟨by decide +kernel, by decide +kernel⟩
  obtain ⟨hN, eN⟩ : ∃ h, (-10000000 : F32) = fin (-10000000) h := ⟨by decide +kernel, by decide +kernel⟩
  unfold InRange at hf hl
  rw [eN, eP] at hf hl
  obtain ⟨x, hx, rfl, x1, x2⟩ := between_cases hf.1 hf.2
  obtain ⟨y, hy, rfl, y1, y2⟩ := between_cases hl.1 hl.2
  have hmain : (F32.ceil ((fin y hy - fin x hx) / (60 / bpm))).toUsize ≤ 2 ^ 28 := by
    rcases bpm with _ | s | ⟨p, hp⟩
    · have : (fin y hy - fin x hx) / (60 / (nan : F32)) = nan := by simp
      rw [this]; simp [F32.ceil, F32.toUsize]
    · cases s
      · exact absurd (Or.inr (by decide +kernel)) hb
      · exact absurd (Or.inl (by decide +kernel)) hb
    · obtain ⟨hE, eE⟩ : ∃ h, EPS = fin EPS.val h := ⟨by decide +kernel, by decide +kernel⟩
      obtain ⟨h3, e3⟩ : ∃ h, (300 : F32) = fin 300 h := ⟨by decide +kernel, by decide +kernel⟩
      push Not at hb
      rw [eE, e3] at hb
      have p1 : EPS.val < p := not_le.1 (fun hc => hb.1 (fin_le_fin.2 hc))
      have p2 : p ≤ 300 := not_lt.1 (fun hc => hb.2 (fin_lt_fin.2 hc))
      exact frames_le p1 p2 (k := 25) (by norm_num) (by norm_num; linarith)
  unfold numFrames
  dsimp only
  rw [if_neg (by unfold usizeMax; omega), if_neg (by omega)]
  exact ⟨_, rfl⟩

/-- A finished call: a value satisfying `P` or an error value. -/
def Finishes {α} (P : α → Prop) (r : R α) : Prop := (∃ e, r = R.err e) ∨ ∃ a, r = .ok a ∧ P a

theorem track_safe {M : Libm} (hM : ExpSmall M) (bpm : F32) (onsets : List F32) (ho : ∀ o ∈ onsets, InRange o) :
    Finishes (fun beats => ∀ b ∈ beats, -16777216 ≤ b.time ∧ b.time ≤ 16777216) (trackBeats M bpm onsets) := by
  by_cases hb : bpm ≤ EPS ∨ 300 < bpm
  · left; unfold trackBeats; rw [if_pos hb]; exact ⟨_, rfl⟩
  by_cases hne : onsets = []
  · left; unfold trackBeats; rw [if_neg hb, if_pos hne]; exact ⟨_, rfl⟩
  obtain ⟨first, hf⟩ : ∃ a, onsets.head? = some a := by
    cases onsets with
    | nil => exact absurd rfl hne
    | cons a l => exact ⟨a, rfl⟩
  have hl : onsets.getLast? = some (onsets.getLast hne) := List.getLast?_eq_some_getLast hne
  obtain ⟨n, hn⟩ := frames_ok hb (ho first (List.mem_of_mem_head? hf)) (ho _ (List.getLast_mem hne))
  have hlat : ∀ b ∈ lattice M bpm first onsets n, -16777216 ≤ b.time ∧ b.time ≤ 16777216 := by
    intro b hbm
    obtain ⟨t, _, he, hbt⟩ := mem_lattice.1 hbm
    obtain ⟨o, hom, hod⟩ := near_onset hM he
    rw [(beatAt_conf hbt).1]
    exact near_bounded (ho o hom) hod
  have hs := sortAscP_of_ne_nan (key := BeatPos.time) (fun b hb => ne_nan_left (hlat b hb).2)
  right
  refine ⟨sortAsc BeatPos.time (lattice M bpm first onsets n), ?_, fun b hbm => ?_⟩
  · rw [trackBeats_eq hb hf hl, hn]; exact hs
  · exact hlat b ((sortAscP_ok hs).2.1.mem_iff.1 hbm)

theorem refine_safe {M : Libm} (hM : ExpSmall M) {fuel : ℕ} (hfuel : 256 ≤ fuel) {onsets : List F32}
    (ho : ∀ o ∈ onsets, InRange o) {beats : List BeatPos} (hb : ∀ b ∈ beats, -16777216 ≤ b.time ∧ b.time ≤ 16777216) :
    ∀ (segs : List Seg) (b : Bayes),
      Finishes (fun l : List BeatPos => ∀ x ∈ l, -16777216 ≤ x.time ∧ x.time ≤ 16777216) (refine M fuel onsets beats segs b)
  | [], _ => Or.inr ⟨[], rfl, by simp⟩
  | s :: segs, b => by
    rw [refine]
    by_cases hv : s.isVar = true
    · rw [if_pos hv]
      dsimp only
      by_cases hso : onsets.filter (fun o => decide (s.start ≤ o) && decide (o ≤ s.stop)) ≠ []
      · rw [if_pos hso]
        have hsub : ∀ o ∈ onsets.filter (fun o => decide (s.start ≤ o) && decide (o ≤ s.stop)), InRange o :=
          fun o h => ho o (List.mem_filter.1 h).1
        generalize onsets.filter (fun o => decide (s.start ≤ o) && decide (o ≤ s.stop)) = so at hsub
        rcases (C37_update M fuel hfuel b so).2 with ⟨e, he⟩ | ⟨b', he, _⟩
        · left; rw [he]; exact ⟨e, rfl⟩
        · rw [he]
          simp only [Bind.bind, Except.bind]
          rcases track_safe hM b'.bpm so hsub with ⟨e, ht⟩ | ⟨here, ht, hh⟩
          · rw [ht]
            rcases refine_safe hM hfuel ho hb segs b' with ⟨e, hr⟩ | ⟨rest, hr, hrb⟩
            · left; rw [hr]; exact ⟨e, rfl⟩
            · right; rw [hr]; exact ⟨rest, rfl, hrb⟩
          · rw [ht]
            rcases refine_safe hM hfuel ho hb segs b' with ⟨e, hr⟩ | ⟨rest, hr, hrb⟩
            · left; rw [hr]; exact ⟨e, rfl⟩
            · right; rw [hr]
              refine ⟨here ++ rest, rfl, ?_⟩
              intro x hx
              rcases List.mem_append.1 hx with hx | hx
              · exact hh x hx
              · exact hrb x hx
      · rw [if_neg hso]; exact refine_safe hM hfuel ho hb segs b
    · rw [if_neg hv]
      simp only [Bind.bind, Except.bind]
      rcases refine_safe hM hfuel ho hb segs b with ⟨e, hr⟩ | ⟨rest, hr, hrb⟩
      · left; rw [hr]; exact ⟨e, rfl⟩
      · right; rw [hr]
        refine ⟨_, rfl, ?_⟩
        intro x hx
        rcases List.mem_append.1 hx with hx | hx
        · exact hb x (List.mem_filter.1 hx).1
        · exact hrb x hx

theorem stability_total (beats : List BeatPos) (bpm : F32) : Finishes (fun _ => True) (stability beats bpm) := by
  unfold stability
  dsimp only
  by_cases h1 : beats.length < 2
  · rw [if_pos h1]; exact Or.inr ⟨_, rfl, trivial⟩
  rw [if_neg h1]
  by_cases h2 : bpm ≤ 0
  · rw [if_pos h2]; exact Or.inl ⟨_, rfl⟩
  rw [if_neg h2]
  by_cases h3 : posIntervals (beats.map BeatPos.time) = []
  · rw [if_pos h3]; exact Or.inr ⟨_, rfl, trivial⟩
  rw [if_neg h3]
  by_cases h4 : mean (posIntervals (beats.map BeatPos.time)) ≤ EPS
  · rw [if_pos h4]; exact Or.inr ⟨_, rfl, trivial⟩
  · rw [if_neg h4]; exact Or.inr ⟨_, rfl, trivial⟩

/-- **C29** (partial: onsets that are numbers of at most ten million seconds; any BPM and confidence, NaN included):
the call finishes with a grid or an error value, never a panic or an endless loop.  NaN and infinite onsets do panic,
see `C29_violated`. -/
theorem C29_no_panic_partial (M : Libm) (hM : ExpSmall M) (fuel : ℕ) (hf : 2 ^ 27 ≤ fuel) (bpm conf : F32)
    (onsets : List F32) (ho : ∀ o ∈ onsets, -10000000 ≤ o ∧ o ≤ 10000000) :
    (∃ e, beatGrid M fuel bpm conf onsets = R.err e) ∨ ∃ g st, beatGrid M fuel bpm conf onsets = .ok (g, st) := by
  unfold beatGrid
  by_cases h1 : bpm ≤ 0 ∨ 300 < bpm
  · left; rw [if_pos h1]; exact ⟨_, rfl⟩
  rw [if_neg h1]
  by_cases h2 : onsets = []
  · left; rw [if_pos h2]; exact ⟨_, rfl⟩
  rw [if_neg h2]
  have hs := sortAscP_of_ne_nan (key := (id : F32 → F32)) (l := onsets) (fun o h => ne_nan_left (ho o h).2)
  have hmem : ∀ o ∈ sortAsc id onsets, InRange o := fun o h => ho o ((sortAscP_ok hs).2.1.mem_iff.1 h)
  rw [hs]
  simp only [Bind.bind, Except.bind]
  generalize sortAsc id onsets = sorted at hmem
  rcases track_safe hM bpm sorted hmem with ⟨e, ht⟩ | ⟨beats, ht, hb⟩
  · left; rw [ht]; exact ⟨e, rfl⟩
  rw [ht]
  simp only
  by_cases h3 : beats = []
  · left; rw [if_pos h3]; exact ⟨_, rfl⟩
  rw [if_neg h3]
  have hrest : ∀ beats' : List BeatPos, (∀ b ∈ beats', -16777216 ≤ b.time ∧ b.time ≤ 16777216) →
      (∃ e, (timeSignature (beats'.map BeatPos.time) bpm).bind (fun v =>
        (gridOf beats' bpm v.1).bind (fun grid => (stability beats' bpm).bind (fun st => (.ok (grid, st) : R (Grid × F32))))) =
          R.err e) ∨ ∃ g st, (timeSignature (beats'.map BeatPos.time) bpm).bind (fun v =>
        (gridOf beats' bpm v.1).bind (fun grid => (stability beats' bpm).bind (fun st => (.ok (grid, st) : R (Grid × F32))))) =
          .ok (g, st) := by
    intro beats' hb'
    have hts : Finishes (fun _ => True) (timeSignature (beats'.map BeatPos.time) bpm) := by
      obtain ⟨t1, t2, t3⟩ := C36_total (beats'.map BeatPos.time) bpm
      by_cases hl : (beats'.map BeatPos.time).length < 8
      · exact Or.inr ⟨_, t1 hl, trivial⟩
      · by_cases hbp : bpm ≤ 1e-10
        · exact Or.inl ⟨_, t2 (by omega) hbp⟩
        · obtain ⟨sig, c, h, _⟩ := t3 (by omega) hbp
          exact Or.inr ⟨_, h, trivial⟩
    rcases hts with ⟨e, h⟩ | ⟨⟨sig, c⟩, h, _⟩
    · left; rw [h]; exact ⟨e, rfl⟩
    rw [h]
    simp only [Except.bind]
    have hg : Finishes (fun _ => True) (gridOf beats' bpm sig) := by
      unfold gridOf
      by_cases h4 : beats' = []
      · left; rw [if_pos h4]; exact ⟨_, rfl⟩
      rw [if_neg h4]
      have hs' := sortAscP_of_ne_nan (key := (id : F32 → F32)) (l := beats'.map BeatPos.time) (by
        intro a ha
        obtain ⟨b, hbm, rfl⟩ := List.mem_map.1 ha
        exact ne_nan_left (hb' b hbm).2)
      rw [hs']
      simp only [Bind.bind, Except.bind]
      unfold downbeats
      cases sortAsc id (beats'.map BeatPos.time) with
      | nil => exact Or.inr ⟨_, rfl, trivial⟩
      | cons a l =>
        dsimp only
        by_cases h5 : bpm ≤ 0
        · rw [if_pos h5]; exact Or.inl ⟨_, rfl⟩
        · rw [if_neg h5]; exact Or.inr ⟨_, rfl, trivial⟩
    rcases hg with ⟨e, h⟩ | ⟨g, h, _⟩
    · left; rw [h]; exact ⟨e, rfl⟩
    rw [h]
    simp only
    rcases stability_total beats' bpm with ⟨e, h⟩ | ⟨st, h, _⟩
    · left; rw [h]; exact ⟨e, rfl⟩
    · right; rw [h]; exact ⟨g, st, rfl⟩
  rcases C34_terminates_partial (beats.map BeatPos.time) bpm (by
    intro a ha
    obtain ⟨b, hbm, rfl⟩ := List.mem_map.1 ha
    exact hb b hbm) fuel hf with ⟨segs, h4⟩ | h4
  swap
  · left; rw [h4]; exact ⟨_, rfl⟩
  rw [h4]
  simp only
  by_cases h5 : hasVariation segs = true
  · rw [if_pos h5]
    rcases refine_safe hM (by omega : 256 ≤ fuel) hmem hb segs (Bayes.new bpm conf) with ⟨e, h⟩ | ⟨refined, h, hrb⟩
    · left; rw [h]; exact ⟨e, rfl⟩
    rw [h]
    simp only
    by_cases h6 : refined ≠ []
    · rw [if_pos h6]
      have hs' := sortAscP_of_ne_nan (key := BeatPos.time) (l := refined) (fun b hbm => ne_nan_left (hrb b hbm).2)
      rw [hs']
      exact hrest _ (fun b hbm => hrb b ((sortAscP_ok hs').2.1.mem_iff.1 hbm))
    · rw [if_neg h6]; exact hrest _ hb
  · rw [if_neg h5]; exact hrest _ hb

/-- non-vacuity: an unsorted onset list in range, with a NaN confidence, returns a grid; a NaN BPM returns an error -/
example : (∀ o ∈ ([1, 0, 0.5, 1.5] : List F32), -10000000 ≤ o ∧ o ≤ 10000000) ∧
    (match beatGrid Libm.demo 300 120 nan [1, 0, 0.5, 1.5] with | .ok (g, _) => g.beats | .error _ => []) = [0, 0.5, 1, 1.5] ∧
    beatGrid Libm.demo 300 nan 1 [1, 0, 0.5, 1.5] = R.err .processing := by decide +kernel

end Verif.Props
