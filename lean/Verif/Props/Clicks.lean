/-
A metronome through the beat tracker (C114): with the right tempo every click becomes a beat.
-/
import Verif.Props.BeatCount
import Verif.Props.NoveltyValue
import Verif.Props.TimeSig
import Verif.Props.Tempo
import Verif.Props.Loudness

namespace Verif.Props
open Verif Verif.F32 Verif.Beat

/-- Specification: `n + 1` clicks of a metronome at `p` BPM starting at `f` seconds, each at most 40 ms off. -/
def Clicks (p f : ℚ) (n : ℕ) (onsets : List F32) : Prop :=
  30 ≤ p ∧ p ≤ 300 ∧ 0 ≤ f ∧ f + n * (60 / p) ≤ 4096 ∧ onsets.length = n + 1 ∧ (onsets.getD 0 0).val = f ∧
    ∀ k ≤ n, (onsets.getD k 0).isFinite = true ∧ |(onsets.getD k 0).val - (f + k * (60 / p))| ≤ 1 / 25

/-- A libm whose `exp` is not small close to 0 (the real `expf(-2)` is 0.1353). -/
def ExpLarge (M : Libm) : Prop := ∀ x : F32, -2 ≤ x → x ≤ 0 → (0.1 : F32) < M.exp x

theorem beat_len {p : ℚ} (h1 : 30 ≤ p) (h2 : p ≤ 300) : 1 / 5 ≤ 60 / p ∧ 60 / p ≤ 2 := by
  have hp : 0 < p := by linarith
  constructor
  · rw [le_div_iff₀ hp]; linarith
  · rw [div_le_iff₀ hp]; linarith

/-- the length of a beat in f32 -/
theorem beat_f32 {p : ℚ} {hp} (h1 : 30 ≤ p) (h2 : p ≤ 300) :
    ∃ I hI, (60 : F32) / fin p hp = fin I hI ∧ |I - 60 / p| ≤ 60 / p / 2 ^ 23 := by
  obtain ⟨t1, t2⟩ := beat_len h1 h2
  obtain ⟨h6, e6⟩ : ∃ h, (60 : F32) = fin 60 h := ⟨by decide +kernel, by decide +kernel⟩
  rw [e6, div_fin (by linarith)]
  obtain ⟨hv, e⟩ := fin_of_le (q := 60 / p) (by rw [_root_.abs_of_nonneg (by linarith)]; norm_num at t2 ⊢; linarith)
  refine ⟨_, hv, e, ?_⟩
  have := err_pow (60 / p)
  rw [_root_.abs_of_nonneg (show (0 : ℚ) ≤ 60 / p by linarith)] at this
  refine _root_.le_trans this ?_
  generalize 60 / p = T at *
  norm_num
  linarith

/-- the lattice of beats to a millisecond -/
theorem lattice_time {p f : ℚ} {hp hf} (h1 : 30 ≤ p) (h2 : p ≤ 300) (f0 : 0 ≤ f) {t : ℕ} (ht : f + t * (60 / p) ≤ 4099) :
    ∃ w hw, Beat.frameTime (fin p hp) (fin f hf) t = fin w hw ∧ |w - (f + t * (60 / p))| ≤ 1 / 1000 := by
  obtain ⟨t1, t2⟩ := beat_len h1 h2
  obtain ⟨I, hI, eI, bI⟩ := beat_f32 (hp := hp) h1 h2
  have ht0 : (0 : ℚ) ≤ t := Nat.cast_nonneg t
  have htn : t ≤ 2 ^ 20 := by
    have h5 : (t : ℚ) * (1 / 5) ≤ t * (60 / p) := _root_.mul_le_mul_of_nonneg_left t1 ht0
    have : (t : ℚ) ≤ 1048576 := by linarith
    exact_mod_cast this
  have bI' := abs_le.1 bI
  have hI0 : 0 ≤ I := by
    have : 60 / p / 2 ^ 23 ≤ 60 / p := div_le_self (by linarith) (by norm_num)
    linarith [bI'.1]
  have e1 : |(t : ℚ) * I - t * (60 / p)| ≤ t * (60 / p) / 2 ^ 23 := by
    rw [← mul_sub, _root_.abs_mul, _root_.abs_of_nonneg ht0, mul_div_assoc]
    exact _root_.mul_le_mul_of_nonneg_left bI ht0
  unfold Beat.frameTime
  rw [eI, ofNat_exact (by omega)]
  have e1' := abs_le.1 e1
  generalize hA : (t : ℚ) * (60 / p) = A at *
  have hA0 : 0 ≤ A := by rw [← hA]; exact _root_.mul_nonneg ht0 (by linarith)
  obtain ⟨v, hv, ev, v0, bv⟩ := mul_close (ha := grid_nat (by omega)) (hb := hI) ht0 hI0 (by
    norm_num at e1' ⊢; linarith [e1'.2])
  rw [ev, add_fin]
  have bv' := abs_le.1 bv
  generalize (t : ℚ) * I = B at *
  obtain ⟨hw, ew⟩ := fin_of_le (q := f + v) (by
    rw [_root_.abs_of_nonneg (by linarith)]; norm_num at e1' bv' ⊢; linarith [e1'.2, bv'.2])
  refine ⟨_, hw, ew, ?_⟩
  have b3 := err_pow (f + v)
  rw [_root_.abs_of_nonneg (show 0 ≤ f + v by linarith)] at b3
  have b3' := abs_le.1 b3
  generalize rndQ (f + v) = W at *
  rw [abs_le]
  norm_num at e1' bv' b3' ⊢
  constructor <;> linarith [e1'.1, e1'.2, bv'.1, bv'.2, b3'.1, b3'.2]

/-- an onset within 42 ms gives a clear emission -/
theorem emission_large {M : Libm} (hM : ExpLarge M) {onsets : List F32} {t : F32}
    (h : ∃ o ∈ onsets, ∃ d hd, (o - t).abs = fin d hd ∧ d ≤ 21 / 500) : 0.1 < emission M onsets t := by
  obtain ⟨m0, _, m2⟩ := minDist_spec onsets t
  obtain ⟨o, ho, d, hd, e, hle⟩ := h
  have hm := m2 o ho (by rw [e]; simp)
  rw [e] at hm
  unfold emission
  dsimp only
  generalize minDist onsets t = m at *
  rw [zero_def] at m0
  obtain ⟨q, hq, rfl, q0, q1⟩ := between_cases m0 hm
  obtain ⟨hh, ec⟩ : ∃ h, (2 * (SIGMA * SIGMA) : F32) = fin (10737419 / 8589934592) h := ⟨by decide +kernel, by decide +kernel⟩
  have hqq : q * q ≤ 441 / 250000 := by nlinarith
  obtain ⟨v, hv, ev, v0, bv⟩ := mul_close (ha := hq) (hb := hq) q0 q0 (by norm_num; linarith)
  have hv1 : v ≤ 1 / 500 := by
    have := (abs_le.1 bv).2
    norm_num at this ⊢
    linarith
  rw [ec, ev, neg_fin, div_fin (by norm_num)]
  apply hM
  · obtain ⟨h2, e2⟩ : ∃ h, (-2 : F32) = fin (-2) h := ⟨by decide +kernel, by decide +kernel⟩
    rw [e2]
    apply fin_le_rnd
    rw [le_div_iff₀ (by norm_num)]
    linarith
  · rw [zero_def]
    apply rnd_le_fin
    rw [div_le_iff₀ (by norm_num)]
    linarith

/-- distances of two times -/
theorem dist_f32 {a b : ℚ} {ha hb} (h : |a - b| ≤ 5000) :
    ∃ d hd, (fin a ha - fin b hb).abs = fin d hd ∧ |d - (|a - b|)| ≤ |a - b| / 2 ^ 24 + 1 / 2 ^ 150 := by
  rw [sub_fin]
  obtain ⟨hv, e⟩ := fin_of_le (q := a - b) (_root_.le_trans h (by norm_num))
  rw [e, abs_fin]
  refine ⟨_, _, rfl, ?_⟩
  exact _root_.le_trans (abs_abs_sub_abs_le _ _) (err_pow (a - b))

/-- the tracker looks at the frames up to the last click, or one more -/
theorem metro_frames {p f o : ℚ} {hp hf ho} (h1 : 30 ≤ p) (h2 : p ≤ 300) (f0 : 0 ≤ f) {n : ℕ}
    (hn : f + n * (60 / p) ≤ 4096) (hd : |o - (f + n * (60 / p))| ≤ 1 / 25) :
    ∃ N, numFrames (fin p hp) (fin f hf) (fin o ho) = .ok N ∧ (N = n + 1 ∨ N = n + 2) := by
  obtain ⟨t1, t2⟩ := beat_len h1 h2
  obtain ⟨I, hI, eI, bI⟩ := beat_f32 (hp := hp) h1 h2
  have hn0 : (0 : ℚ) ≤ n := Nat.cast_nonneg n
  have hnn : (n : ℚ) ≤ 20480 := by
    have h5 : (n : ℚ) * (1 / 5) ≤ n * (60 / p) := _root_.mul_le_mul_of_nonneg_left t1 hn0
    linarith
  have hnN : n ≤ 20480 := by exact_mod_cast hnn
  have hd' := abs_le.1 hd
  have e1 : |(n : ℚ) * I - n * (60 / p)| ≤ n * (60 / p) / 2 ^ 23 := by
    rw [← mul_sub, _root_.abs_mul, _root_.abs_of_nonneg hn0, mul_div_assoc]
    exact _root_.mul_le_mul_of_nonneg_left bI hn0
  have e1' := abs_le.1 e1
  have bI' := abs_le.1 bI
  have hA0 : 0 ≤ (n : ℚ) * (60 / p) := _root_.mul_nonneg hn0 (by linarith)
  have b1 := err_pow (o - f)
  have b1a : |o - f| ≤ 4097 := abs_le.2 ⟨by linarith, by linarith⟩
  have b1' := abs_le.1 b1
  obtain ⟨hD, eD⟩ := fin_of_le (q := o - f) (_root_.le_trans b1a (by norm_num))
  have hx : ∃ X hX, (fin o ho - fin f hf) / (60 / fin p hp) = fin X hX ∧ (n : ℚ) - 1 < X ∧ X ≤ n + 1 := by
    rw [sub_fin, eD, eI]
    generalize rndQ (o - f) = D at *
    generalize (n : ℚ) * (60 / p) = A at *
    generalize 60 / p = T at *
    generalize |o - f| = E at *
    have hI0 : 1 / 6 ≤ I := by norm_num at bI' ⊢; linarith [bI'.1]
    have hlo : (n : ℚ) - 1 / 2 ≤ D / I := by
      rw [le_div_iff₀ (by linarith)]
      norm_num at b1' e1' ⊢
      linarith [b1'.1, e1'.2]
    have hhi : D / I ≤ n + 1 / 2 := by
      rw [div_le_iff₀ (by linarith)]
      norm_num at b1' e1' ⊢
      linarith [b1'.2, e1'.1]
    rw [div_fin (by linarith)]
    have hab : |D / I| ≤ 20481 := abs_le.2 ⟨by linarith, by linarith⟩
    obtain ⟨hX, eX⟩ := fin_of_le (q := D / I) (_root_.le_trans hab (by norm_num))
    have b2 := abs_le.1 (err_pow (D / I))
    refine ⟨_, hX, eX, ?_, ?_⟩
    · norm_num at b2 ⊢; linarith [b2.1]
    · norm_num at b2 ⊢; linarith [b2.2]
  obtain ⟨X, hX, eX, x1, x2⟩ := hx
  unfold numFrames
  rw [eX]
  have hup : (F32.ceil (fin X hX)).toUsize ≤ n + 1 := by
    apply ceil_le (h := grid_nat (by omega))
    rw [fin_le_fin]; push_cast; exact x2
  have hlo : n ≤ (F32.ceil (fin X hX)).toUsize := by
    apply toUsize_ge (hn := grid_nat (by omega))
    · show _ ≤ rnd _
      apply fin_le_rnd
      have : (n : ℤ) - 1 < ⌈X⌉ := Int.lt_ceil.2 (by push_cast; exact x1)
      have : (n : ℤ) ≤ ⌈X⌉ := by omega
      exact_mod_cast this
    · unfold usizeMax; omega
  generalize (F32.ceil (fin X hX)).toUsize = N at *
  dsimp only
  rw [if_neg (by unfold usizeMax; omega), if_neg (by omega)]
  exact ⟨_, rfl, by omega⟩

/-- the clicks as numbers -/
theorem Clicks.at {p f : ℚ} {n : ℕ} {onsets : List F32} (h : Clicks p f n onsets) {k : ℕ} (hk : k ≤ n) :
    ∃ o ho, onsets[k]? = some (fin o ho) ∧ |o - (f + k * (60 / p))| ≤ 1 / 25 ∧ (k = 0 → o = f) := by
  obtain ⟨_, _, _, _, hl, h0, hc⟩ := h
  obtain ⟨c1, c2⟩ := hc k hk
  obtain ⟨o, ho, e⟩ := isFinite_iff.1 c1
  rw [e] at c2
  refine ⟨o, ho, ?_, c2, ?_⟩
  · rw [← e, List.getD_eq_getElem?_getD, List.getElem?_eq_getElem (by omega)]; rfl
  · rintro rfl; rw [e] at h0; exact h0

/-- the lattice of the tracker on clicks: all frames up to the last click and nothing else -/
theorem click_lattice {M : Libm} (hL : ExpLarge M) (hS : ExpSmall M) {p f : ℚ} {hp hf} {n : ℕ} {onsets : List F32}
    (h : Clicks p f n onsets) {N : ℕ} (hN : N = n + 1 ∨ N = n + 2) :
    (Beat.lattice M (fin p hp) (fin f hf) onsets N).map BeatPos.time =
      (List.range (n + 1)).map (Beat.frameTime (fin p hp) (fin f hf)) := by
  obtain ⟨h1, h2, f0, hn, hlen, _, _⟩ := id h
  obtain ⟨t1, t2⟩ := beat_len h1 h2
  have hT0 : (0 : ℚ) ≤ 60 / p := by linarith
  have hall : ∀ k ≤ n, ∃ b, beatAt (fin p hp) (fin f hf) onsets
      (emission M onsets (Beat.frameTime (fin p hp) (fin f hf) k)) k = some b ∧
      b.time = Beat.frameTime (fin p hp) (fin f hf) k := by
    intro k hk
    have hkn : (k : ℚ) * (60 / p) ≤ n * (60 / p) := _root_.mul_le_mul_of_nonneg_right (by exact_mod_cast hk) hT0
    have he : 0.1 < emission M onsets (Beat.frameTime (fin p hp) (fin f hf) k) := by
      obtain ⟨w, hw, ew, bw⟩ := lattice_time (hp := hp) (hf := hf) h1 h2 f0 (t := k) (by linarith)
      obtain ⟨o, ho, eo, bo, _⟩ := h.at hk
      rw [ew]
      apply emission_large hL
      refine ⟨fin o ho, List.mem_of_getElem? eo, ?_⟩
      have hd : |o - w| ≤ 41 / 1000 := by
        have a := abs_le.1 bw
        have b := abs_le.1 bo
        exact abs_le.2 ⟨by linarith [a.2, b.1], by linarith [a.1, b.2]⟩
      obtain ⟨d, hd', ed, bd⟩ := dist_f32 (ha := ho) (hb := hw) (a := o) (b := w) (by linarith)
      refine ⟨d, hd', ed, ?_⟩
      have := (abs_le.1 bd).2
      norm_num at this ⊢
      linarith
    unfold beatAt
    rw [if_pos he]
    exact ⟨_, rfl, rfl⟩
  have hmain : (Beat.lattice M (fin p hp) (fin f hf) onsets (n + 1)).map BeatPos.time =
      (List.range (n + 1)).map (Beat.frameTime (fin p hp) (fin f hf)) := by
    unfold Beat.lattice
    rw [List.map_filterMap]
    have hcongr : ∀ (l : List ℕ), (∀ k ∈ l, k ≤ n) → l.filterMap (fun x => Option.map BeatPos.time
        (beatAt (fin p hp) (fin f hf) onsets (emission M onsets (Beat.frameTime (fin p hp) (fin f hf) x)) x)) =
        l.map (Beat.frameTime (fin p hp) (fin f hf)) := by
      intro l hl
      induction l with
      | nil => rfl
      | cons k l ih =>
        obtain ⟨b, e1, e2⟩ := hall k (hl k (by simp))
        rw [List.filterMap_cons, e1, List.map_cons, ← e2, ← ih (fun j hj => hl j (by simp [hj]))]
        rfl
    exact hcongr _ (fun k hk => by have := List.mem_range.1 hk; omega)
  rcases hN with rfl | rfl
  · exact hmain
  · rw [← hmain]
    congr 1
    unfold Beat.lattice
    rw [show n + 2 = (n + 1) + 1 by omega, List.range_succ (n := n + 1), List.filterMap_append]
    have hnone : beatAt (fin p hp) (fin f hf) onsets (emission M onsets (Beat.frameTime (fin p hp) (fin f hf) (n + 1))) (n + 1) =
        none := by
      unfold beatAt
      rw [if_neg]
      intro he
      obtain ⟨o', ho', hnear⟩ := near_onset hS he
      obtain ⟨k, hk, rfl⟩ := List.getElem_of_mem ho'
      obtain ⟨w, hw, ew, bw⟩ := lattice_time (hp := hp) (hf := hf) h1 h2 f0 (t := n + 1) (by push_cast; linarith)
      obtain ⟨o, ho, eo, bo, _⟩ := h.at (k := k) (by omega)
      rw [List.getElem?_eq_getElem hk] at eo
      rw [Option.some.inj eo, ew] at hnear
      have hkn : (k : ℚ) * (60 / p) ≤ n * (60 / p) :=
        _root_.mul_le_mul_of_nonneg_right (by exact_mod_cast (by omega : k ≤ n)) hT0
      have hk0 : 0 ≤ (k : ℚ) * (60 / p) := _root_.mul_nonneg (Nat.cast_nonneg _) hT0
      have a := abs_le.1 bw
      have b := abs_le.1 bo
      push_cast at a
      have hdlo : 3 / 20 ≤ |o - w| := by
        rw [abs_sub_comm]
        refine _root_.le_trans ?_ (le_abs_self _)
        linarith [a.1, b.2]
      have hdhi : |o - w| ≤ 5000 := abs_le.2 ⟨by linarith [a.2, b.1], by linarith [a.1, b.2]⟩
      obtain ⟨d, hd', ed, bd⟩ := dist_f32 (ha := ho) (hb := hw) (a := o) (b := w) hdhi
      obtain ⟨h5, e5⟩ : ∃ h, (0.054 : F32) = fin (14495515 / 268435456) h := ⟨by decide +kernel, by decide +kernel⟩
      rw [ed, e5, fin_le_fin] at hnear
      have := (abs_le.1 bd).1
      norm_num at this
      linarith
    rw [List.filterMap_cons, hnone, List.filterMap_nil, List.append_nil]

/-- the beats of the tracker on clicks -/
theorem click_beats {M : Libm} (hL : ExpLarge M) (hS : ExpSmall M) {p f : ℚ} {hp hf} {n : ℕ} {onsets : List F32}
    (h : Clicks p f n onsets) (hfirst : onsets.head? = some (fin f hf)) :
    ∃ beats, trackBeats M (fin p hp) onsets = .ok beats ∧
      beats.map BeatPos.time = (List.range (n + 1)).map (Beat.frameTime (fin p hp) (fin f hf)) := by
  obtain ⟨h1, h2, f0, hn, hlen, _, _⟩ := id h
  obtain ⟨o, ho, eo, bo, _⟩ := h.at (k := n) (by omega)
  have hlast : onsets.getLast? = some (fin o ho) := by
    rw [List.getLast?_eq_getElem?, hlen]; exact eo
  have hb : ¬ (fin p hp ≤ EPS ∨ 300 < fin p hp) := by
    obtain ⟨h3, e3⟩ : ∃ h, (300 : F32) = fin 300 h := ⟨by decide +kernel, by decide +kernel⟩
    obtain ⟨he, ee⟩ : ∃ h, EPS = fin EPS.val h := ⟨by decide +kernel, by decide +kernel⟩
    have hE : EPS.val < 1 := by decide +kernel
    rw [ee, e3, fin_le_fin, fin_lt_fin]
    intro hc
    rcases hc with hc | hc <;> linarith
  obtain ⟨N, eN, hN⟩ := metro_frames (hp := hp) (hf := hf) (ho := ho) h1 h2 f0 hn bo
  rw [trackBeats_eq hb hfirst hlast, eN]
  have hlat := click_lattice (hp := hp) (hf := hf) hL hS h hN
  have hp0 : EPS.val < p := by have : EPS.val < 1 := by decide +kernel
                               linarith
  have hmemtime : ∀ b ∈ Beat.lattice M (fin p hp) (fin f hf) onsets N, b.time ≠ nan := by
    intro b hb'
    have : b.time ∈ (List.range (n + 1)).map (Beat.frameTime (fin p hp) (fin f hf)) := by
      rw [← hlat]; exact List.mem_map_of_mem hb'
    obtain ⟨t, ht, e⟩ := List.mem_map.1 this
    have htn : (t : ℚ) * (60 / p) ≤ n * (60 / p) :=
      _root_.mul_le_mul_of_nonneg_right (by exact_mod_cast (by have := List.mem_range.1 ht; omega : t ≤ n))
        (by linarith [(beat_len h1 h2).1])
    obtain ⟨w, hw, ew, _⟩ := lattice_time (hp := hp) (hf := hf) h1 h2 f0 (t := t) (by linarith)
    rw [← e, ew]; simp
  have hs := sortAscP_of_ne_nan hmemtime
  obtain ⟨_, hperm, hsort⟩ := sortAscP_ok hs
  refine ⟨_, hs, ?_⟩
  have hnn : (n : ℚ) ≤ 20480 := by
    have h5 : (n : ℚ) * (1 / 5) ≤ n * (60 / p) :=
      _root_.mul_le_mul_of_nonneg_left (beat_len h1 h2).1 (Nat.cast_nonneg n)
    linarith
  have hnN : n ≤ 20480 := by exact_mod_cast hnn
  have hnT : 0 ≤ (n : ℚ) * (60 / p) := _root_.mul_nonneg (Nat.cast_nonneg n) (by linarith [(beat_len h1 h2).1])
  have hpm := (hperm.map BeatPos.time).trans (List.Perm.of_eq hlat)
  refine List.Perm.eq_of_pairwise (le := fun a b : F32 => a ≤ b) (fun a b _ _ hab hba => F32.le_antisymm hab hba) ?_ ?_ hpm
  · rw [List.pairwise_map]; exact hsort
  · rw [List.pairwise_map]
    refine List.Pairwise.imp_of_mem ?_ (List.pairwise_lt_range (n := n + 1))
    intro a b ha hb' hab
    exact F32.le_of_lt (frameTime_lt hp0 h2 (by linarith) (by linarith) hab (by have := List.mem_range.1 hb'; omega))

end Verif.Props
