/-
C27 (beat grids are ordered, bars start on beats), C28 (each beat once: refuted), C29 (no panic), C30 (stability).
-/
import Verif.Props.Bayesian
import Verif.Props.Tempo

namespace Verif.Props
open Verif Verif.Beat F32

/-! ### helper lemmas -/

theorem beatGrid_ok {M : Libm} {fuel : ℕ} {bpm conf : F32} {onsets : List F32} {g : Grid} {st : F32}
    (h : beatGrid M fuel bpm conf onsets = .ok (g, st)) :
    ¬ (bpm ≤ 0 ∨ 300 < bpm) ∧ ∃ sorted beats segs beats' sig c, sortAscP id onsets = .ok sorted ∧
      trackBeats M bpm sorted = .ok beats ∧ beats ≠ [] ∧ tempoSegments fuel (beats.map BeatPos.time) bpm = .ok segs ∧
      (hasVariation segs = false → beats' = beats) ∧ timeSignature (beats'.map BeatPos.time) bpm = .ok (sig, c) ∧
      gridOf beats' bpm sig = .ok g ∧ stability beats' bpm = .ok st := by
  unfold beatGrid at h
  by_cases h1 : bpm ≤ 0 ∨ 300 < bpm
  · rw [if_pos h1] at h; simp at h
  rw [if_neg h1] at h
  by_cases h2 : onsets = []
  · rw [if_pos h2] at h; simp at h
  rw [if_neg h2] at h
  refine ⟨h1, ?_⟩
  cases h3 : sortAscP id onsets with
  | error e => rw [h3] at h; simp [Bind.bind, Except.bind] at h
  | ok sorted =>
  rw [h3] at h
  simp only [Bind.bind, Except.bind] at h
  cases h4 : trackBeats M bpm sorted with
  | error e => rw [h4] at h; simp at h
  | ok beats =>
  rw [h4] at h
  simp only at h
  by_cases h5 : beats = []
  · rw [if_pos h5] at h; simp at h
  rw [if_neg h5] at h
  cases h6 : tempoSegments fuel (beats.map BeatPos.time) bpm with
  | error e => rw [h6] at h; simp at h
  | ok segs =>
  rw [h6] at h
  simp only at h
  have hrest : ∀ beats', (timeSignature (beats'.map BeatPos.time) bpm).bind (fun v =>
      (gridOf beats' bpm v.1).bind (fun grid => (stability beats' bpm).bind (fun st => (.ok (grid, st) : R (Grid × F32))))) =
        .ok (g, st) →
      ∃ sig c, timeSignature (beats'.map BeatPos.time) bpm = .ok (sig, c) ∧
      gridOf beats' bpm sig = .ok g ∧ stability beats' bpm = .ok st := by
    intro beats' h
    cases h7 : timeSignature (beats'.map BeatPos.time) bpm with
    | error e => rw [h7] at h; simp [Except.bind] at h
    | ok v =>
    rw [h7] at h
    simp only [Except.bind] at h
    cases h8 : gridOf beats' bpm v.1 with
    | error e => rw [h8] at h; simp at h
    | ok grid =>
    rw [h8] at h
    simp only at h
    cases h9 : stability beats' bpm with
    | error e => rw [h9] at h; simp at h
    | ok s =>
    rw [h9] at h
    simp only at h
    have := Except.ok.inj h
    cases this
    exact ⟨v.1, v.2, rfl, h8, rfl⟩
  by_cases h7 : hasVariation segs = true
  · rw [if_pos h7] at h
    cases h8 : refine M fuel sorted beats segs (Bayes.new bpm conf) with
    | error e => rw [h8] at h; simp at h
    | ok refined =>
    rw [h8] at h
    simp only at h
    by_cases h9 : refined ≠ []
    · rw [if_pos h9] at h
      cases h10 : sortAscP BeatPos.time refined with
      | error e => rw [h10] at h; simp at h
      | ok b' =>
        rw [h10] at h
        obtain ⟨sig, c, r1, r2, r3⟩ := hrest b' h
        exact ⟨sorted, beats, segs, b', sig, c, rfl, h4, h5, h6, fun hc => by rw [h7] at hc; simp at hc, r1, r2, r3⟩
    · rw [if_neg h9] at h
      obtain ⟨sig, c, r1, r2, r3⟩ := hrest beats h
      exact ⟨sorted, beats, segs, beats, sig, c, rfl, h4, h5, h6, fun _ => rfl, r1, r2, r3⟩
  · rw [if_neg h7] at h
    obtain ⟨sig, c, r1, r2, r3⟩ := hrest beats h
    exact ⟨sorted, beats, segs, beats, sig, c, rfl, h4, h5, h6, fun _ => rfl, r1, r2, r3⟩

theorem downbeatsFrom_spec (bar tol : F32) : ∀ (last : F32) (l : List F32),
    (downbeatsFrom bar tol last l).Sublist l ∧
    (last :: downbeatsFrom bar tol last l).IsChain (fun a b => (b - (a + bar)).abs ≤ tol)
  | _, [] => by simp [downbeatsFrom]
  | last, b :: bs => by
    rw [downbeatsFrom]
    by_cases h : (b - (last + bar)).abs ≤ tol
    · rw [if_pos h]
      obtain ⟨i1, i2⟩ := downbeatsFrom_spec bar tol b bs
      exact ⟨i1.cons_cons b, List.isChain_cons_cons.2 ⟨h, i2⟩⟩
    · rw [if_neg h]
      obtain ⟨i1, i2⟩ := downbeatsFrom_spec bar tol last bs
      exact ⟨i1.cons b, i2⟩

theorem gridOf_spec {beats : List BeatPos} {bpm : F32} {sig : TimeSig} {g : Grid} (h : gridOf beats bpm sig = .ok g) :
    g.beats ≠ [] ∧ g.beats.Pairwise (· ≤ ·) ∧ g.beats.Perm (beats.map BeatPos.time) ∧ g.downbeats.head? = g.beats.head? ∧
    g.downbeats.Sublist g.beats ∧ g.bars = g.downbeats ∧
    g.downbeats.IsChain (fun a b => (b - (a + 60 / bpm * F32.ofNat sig.beatsPerBar)).abs ≤
      60 / bpm * F32.ofNat sig.beatsPerBar * 0.1) := by
  unfold gridOf at h
  by_cases h1 : beats = []
  · rw [if_pos h1] at h; simp at h
  rw [if_neg h1] at h
  cases h2 : sortAscP id (beats.map BeatPos.time) with
  | error e => rw [h2] at h; simp [Bind.bind, Except.bind] at h
  | ok bs =>
  rw [h2] at h
  simp only [Bind.bind, Except.bind] at h
  obtain ⟨_, hp, hs⟩ := sortAscP_ok h2
  cases h3 : downbeats bs bpm sig with
  | error e => rw [h3] at h; simp at h
  | ok ds =>
  rw [h3] at h
  have := Except.ok.inj h
  subst this
  have hne : bs ≠ [] := by
    rintro rfl
    have := hp.length_eq
    simp at this
    exact h1 (List.eq_nil_of_length_eq_zero this.symm)
  refine ⟨hne, hs, hp, ?_⟩
  cases bs with
  | nil => exact absurd rfl hne
  | cons b bs =>
    unfold downbeats at h3
    dsimp only at h3
    by_cases hb : bpm ≤ 0
    · rw [if_pos hb] at h3; simp at h3
    rw [if_neg hb] at h3
    have := Except.ok.inj h3
    subst this
    obtain ⟨d1, d2⟩ := downbeatsFrom_spec (60 / bpm * F32.ofNat sig.beatsPerBar) (60 / bpm * F32.ofNat sig.beatsPerBar * 0.1) b bs
    exact ⟨rfl, d1.cons_cons b, rfl, d2⟩

theorem rndQ_err (q : ℚ) : |rndQ q - q| ≤ |q| * eps + eta := by
  have he : (0:ℚ) ≤ eta := by unfold eta; norm_num
  have h0 : (0:ℚ) ≤ |q| * eps := by unfold eps; positivity
  rcases _root_.le_total (pow2 (-126)) |q| with h1 | h1
  · have := abs_rndQ_sub_le_rel h1
    rw [pow2_m24'] at this; linarith
  · have := abs_rndQ_sub_le_sub h1
    rw [pow2_m150'] at this; linarith

/-! ### C27 -/

/-- **C27**: shape of every returned grid.  The bar length is `60 / bpm` times 4, 3 or 6; a downbeat follows its
predecessor by a bar up to 10 percent, in f32 arithmetic. -/
theorem C27_grid (M : Libm) (fuel : ℕ) (bpm conf : F32) (onsets : List F32) (g : Grid) (st : F32)
    (h : beatGrid M fuel bpm conf onsets = .ok (g, st)) :
    g.beats ≠ [] ∧ g.beats.Pairwise (· ≤ ·) ∧ g.downbeats.head? = g.beats.head? ∧ g.downbeats.Sublist g.beats ∧
    g.bars = g.downbeats ∧ ∃ n : ℕ, (n = 4 ∨ n = 3 ∨ n = 6) ∧
      g.downbeats.IsChain (fun a b => (b - (a + 60 / bpm * F32.ofNat n)).abs ≤ 60 / bpm * F32.ofNat n * 0.1) := by
  obtain ⟨_, sorted, beats, segs, beats', sig, c, _, _, _, _, _, _, hg, _⟩ := beatGrid_ok h
  obtain ⟨g1, g2, _, g4, g5, g6, g7⟩ := gridOf_spec hg
  exact ⟨g1, g2, g4, g5, g6, sig.beatsPerBar, by cases sig <;> simp [TimeSig.beatsPerBar], g7⟩

/-- the tolerance in exact arithmetic -/
theorem bar_rational {bpm a b : F32} {n : ℕ} (hn : n = 4 ∨ n = 3 ∨ n = 6) (hlo : EPS < bpm) (hhi : bpm ≤ 300)
    (ha : -65536 ≤ a ∧ a ≤ 65536) (hb : -65536 ≤ b ∧ b ≤ 65536)
    (h : (b - (a + 60 / bpm * F32.ofNat n)).abs ≤ 60 / bpm * F32.ofNat n * 0.1) :
    0.89 * (60 / bpm.val * n) ≤ b.val - a.val ∧ b.val - a.val ≤ 1.11 * (60 / bpm.val * n) := by
  obtain ⟨hE, eE⟩ : ∃ h, EPS = fin EPS.val h := ⟨by decide +kernel, by decide +kernel⟩
  obtain ⟨h3, e3⟩ : ∃ h, (300 : F32) = fin 300 h := ⟨by decide +kernel, by decide +kernel⟩
  obtain ⟨h6, e6⟩ : ∃ h, (60 : F32) = fin 60 h := ⟨by decide +kernel, by decide +kernel⟩
  obtain ⟨hP, eP⟩ : ∃ h, (65536 : F32) = fin 65536 h := ⟨by decide +kernel, by decide +kernel⟩
  obtain ⟨hN, eN⟩ : ∃ h, (-65536 : F32) = fin (-65536) h := ⟨by decide +kernel, by decide +kernel⟩
  obtain ⟨h1, e1⟩ : ∃ h, (0.1 : F32) = fin (13421773 / 134217728) h := ⟨by decide +kernel, by decide +kernel⟩
  have hEp : (1 / 2 ^ 34 : ℚ) < EPS.val := by decide +kernel
  rw [eN, eP] at ha hb
  obtain ⟨x, hx, rfl, x1, x2⟩ := between_cases ha.1 ha.2
  obtain ⟨y, hy, rfl, y1, y2⟩ := between_cases hb.1 hb.2
  have hlo' := F32.le_of_lt hlo
  rw [eE] at hlo'; rw [e3] at hhi
  obtain ⟨p, hp, rfl, p1, p2⟩ := between_cases hlo' hhi
  have hp0 : 0 < p := by
    have : (0:ℚ) < 1 / 2 ^ 34 := by norm_num
    linarith
  have hn24 : n ≤ 2 ^ 24 := by rcases hn with h | h | h <;> rw [h] <;> norm_num
  have hnq : (3 : ℚ) ≤ n ∧ (n : ℚ) ≤ 6 := by rcases hn with h | h | h <;> rw [h] <;> norm_num
  have hr1 : (1 / 5 : ℚ) ≤ 60 / p := by rw [le_div_iff₀ hp0]; linarith
  have hr2 : 60 / p ≤ 2 ^ 40 := by
    rw [div_le_iff₀ hp0]
    have : (60 : ℚ) ≤ 2 ^ 40 * (1 / 2 ^ 34) := by norm_num
    linarith
  have hgrid : ∀ e : ℤ, -149 ≤ e → e < 128 → OnGrid (pow2 e) ∧ |pow2 e| < pow2 128 := fun e he he2 =>
    ⟨onGrid_pow2 he, by rw [abs_of_pos (pow2_pos _)]; exact pow2_lt he2⟩
  have hp50 : pow2 50 = 2 ^ 50 := by have := pow2_nat 50; exact_mod_cast this
  rw [e6, div_fin hp0.ne', ofNat_exact hn24, e1] at h
  obtain ⟨hI, eI, bI⟩ := rnd_finite_of_abs_le (q := 60 / p) (hgrid 50 (by norm_num) (by norm_num))
    (by rw [hp50, abs_of_nonneg (by positivity)]; norm_num at hr2 ⊢; linarith)
  rw [eI, mul_fin] at h
  have hIu := rndQ_up (q := 60 / p) (by positivity)
  have hId := rndQ_down (q := 60 / p) (by positivity)
  generalize hIdef : rndQ (60 / p) = I at *
  show 0.89 * (60 / p * n) ≤ y - x ∧ y - x ≤ 1.11 * (60 / p * n)
  generalize hr : 60 / p = r at *
  unfold eps eta at hIu hId
  norm_num at hIu hId
  have hI0 : 0 ≤ I := by linarith
  have hI2 : I ≤ 2 ^ 41 := by norm_num at hr2 ⊢; linarith
  have hIn : 0 ≤ I * n := by have := hnq.1; positivity
  have hIn2 : I * n ≤ 2 ^ 41 * 6 := by
    have := hnq.2
    exact _root_.mul_le_mul hI2 this (by linarith [hnq.1]) (by norm_num)
  obtain ⟨hB, eB, bB⟩ := rnd_finite_of_abs_le (q := I * n) (hgrid 50 (by norm_num) (by norm_num))
    (by rw [hp50, abs_of_nonneg hIn]; norm_num at hIn2 ⊢; linarith)
  rw [eB, add_fin, mul_fin] at h
  have hBu := rndQ_up hIn
  have hBd := rndQ_down hIn
  generalize rndQ (I * n) = B at *
  unfold eps eta at hBu hBd
  norm_num at hBu hBd
  -- the exact bar
  have hR : (3 / 5 : ℚ) ≤ r * n := by nlinarith [hnq.1]
  have hInu : I * n ≤ r * n * (1 + 1 / 10 ^ 7) + 1 / 10 ^ 8 := by
    have : I ≤ r * (1 + 1 / 2 ^ 24) + 1 / 2 ^ 150 := by norm_num; linarith
    have h2 := _root_.mul_le_mul_of_nonneg_right this (by linarith [hnq.1] : (0:ℚ) ≤ n)
    have h3 : (0:ℚ) ≤ r * n := by linarith
    have h4 : (1 / 2 ^ 150 : ℚ) * n ≤ 1 / 10 ^ 8 := by
      have := hnq.2; norm_num; linarith
    nlinarith
  have hInd : r * n * (1 - 1 / 10 ^ 7) - 1 / 10 ^ 8 ≤ I * n := by
    have : r * (1 - 1 / 2 ^ 24) - 1 / 2 ^ 150 ≤ I := by norm_num; linarith
    have h2 := _root_.mul_le_mul_of_nonneg_right this (by linarith [hnq.1] : (0:ℚ) ≤ n)
    have h3 : (0:ℚ) ≤ r * n := by linarith
    have h4 : (1 / 2 ^ 150 : ℚ) * n ≤ 1 / 10 ^ 8 := by
      have := hnq.2; norm_num; linarith
    nlinarith
  have hRmax : r * n ≤ 2 ^ 43 := by
    have := _root_.mul_le_mul hr2 hnq.2 (by linarith [hnq.1] : (0:ℚ) ≤ n) (by norm_num)
    norm_num at this ⊢; linarith
  generalize hRdef : r * n = R at *
  generalize I * (n : ℚ) = J at *
  norm_num at hInu hInd
  have hB1 : R * (1 - 1 / 10 ^ 6) ≤ B := by norm_num; linarith
  have hB2 : B ≤ R * (1 + 1 / 10 ^ 6) := by norm_num; linarith
  have hB0 : 0 ≤ B := by norm_num at hB1; linarith
  have hBmax : B ≤ 2 ^ 44 := by norm_num at hB2 hRmax ⊢; linarith
  -- expected position
  have hxB : |x + B| ≤ 65536 + B := by rw [_root_.abs_le]; constructor <;> linarith
  obtain ⟨hS, eS, bS⟩ := rnd_finite_of_abs_le (q := x + B) (hgrid 50 (by norm_num) (by norm_num))
    (by rw [hp50]; norm_num at hBmax ⊢; linarith)
  rw [eS, sub_fin] at h
  have hSe := rndQ_err (x + B)
  generalize rndQ (x + B) = S at *
  rw [hp50] at bS
  have hyS : |y - S| ≤ 2 ^ 51 := by
    have := _root_.abs_le.1 bS
    rw [_root_.abs_le]; constructor <;> norm_num at this ⊢ <;> linarith [this.1, this.2]
  have hp51 : pow2 51 = 2 ^ 51 := by have := pow2_nat 51; exact_mod_cast this
  obtain ⟨hD, eD, bD⟩ := rnd_finite_of_abs_le (q := y - S) (hgrid 51 (by norm_num) (by norm_num))
    (by rw [hp51]; exact hyS)
  rw [eD, abs_fin] at h
  have hDe := rndQ_err (y - S)
  -- tolerance
  have ht0 : 0 ≤ B * (13421773 / 134217728) := by positivity
  obtain ⟨hT, eT, bT⟩ := rnd_finite_of_abs_le (q := B * (13421773 / 134217728)) (hgrid 50 (by norm_num) (by norm_num))
    (by rw [hp50, abs_of_nonneg ht0]; norm_num at hBmax ⊢; linarith)
  rw [eT] at h
  have hh := fin_le_fin.1 h
  have hTu := rndQ_up ht0
  generalize rndQ (B * (13421773 / 134217728)) = T at *
  generalize rndQ (y - S) = D at *
  unfold eps eta at hSe hDe hTu
  norm_num at hSe hDe hTu hB1 hB2
  have a1 := _root_.abs_le.1 hSe
  have a2 := _root_.abs_le.1 hDe
  have a3 : |y - S| * (1 - 1 / 2 ^ 24) ≤ T + 1 / 2 ^ 100 := by
    have b1 : |y - S| ≤ |D| + |D - (y - S)| := by
      have := abs_sub_abs_le_abs_sub (y - S) D
      rw [abs_sub_comm (y - S) D] at this; linarith
    norm_num; linarith
  norm_num at a3
  have a4 : |y - S| ≤ R * (1002 / 10000) := by linarith
  have a5 : |S - (x + B)| ≤ R * (66 / 10000) := by
    rw [_root_.abs_le]; constructor <;> linarith [a1.1, a1.2]
  have a6 := _root_.abs_le.1 a4
  have a7 := _root_.abs_le.1 a5
  constructor <;> norm_num <;> linarith [a6.1, a6.2, a7.1, a7.2]

/-- **C27**, bar lengths in exact arithmetic: for beats within 65536 s (18 hours) consecutive downbeats are one bar
apart up to 11 percent, rounding included. -/
theorem C27_bar_length (M : Libm) (fuel : ℕ) (bpm conf : F32) (onsets : List F32) (g : Grid) (st : F32)
    (h : beatGrid M fuel bpm conf onsets = .ok (g, st)) (hbpm : bpm ≠ nan)
    (hb : ∀ b ∈ g.beats, -65536 ≤ b ∧ b ≤ 65536) :
    ∃ n : ℕ, (n = 4 ∨ n = 3 ∨ n = 6) ∧ g.downbeats.IsChain (fun a b =>
      0.89 * (60 / bpm.val * n) ≤ b.val - a.val ∧ b.val - a.val ≤ 1.11 * (60 / bpm.val * n)) := by
  obtain ⟨_, _, _, hsub, _, n, hn, hch⟩ := C27_grid M fuel bpm conf onsets g st h
  obtain ⟨_, sorted, beats, _, _, _, _, _, ht, _⟩ := beatGrid_ok h
  have hbb : ¬ (bpm ≤ EPS ∨ 300 < bpm) := by
    intro hc; unfold trackBeats at ht; rw [if_pos hc] at ht; simp at ht
  push Not at hbb
  have hlo := lt_of_not_le (by decide +kernel) hbpm hbb.1
  have hhi := le_of_not_lt hbpm (by decide +kernel) hbb.2
  refine ⟨n, hn, ?_⟩
  have hmem : ∀ d ∈ g.downbeats, -65536 ≤ d ∧ d ≤ 65536 := fun d hd => hb d (hsub.subset hd)
  clear hsub
  generalize g.downbeats = ds at hch hmem
  induction ds with
  | nil => exact List.isChain_nil
  | cons a l ih =>
    cases l with
    | nil => exact List.isChain_singleton a
    | cons b l =>
      rw [List.isChain_cons_cons] at hch ⊢
      exact ⟨bar_rational hn hlo hhi (hmem a (by simp)) (hmem b (by simp)) hch.1,
        ih hch.2 (fun d hd => hmem d (by simp [hd]))⟩

/-- non-vacuity: a grid with two bars of 4/4 -/
example : (match beatGrid Libm.demo 300 120 1 [0, 0.5, 1, 1.5, 2, 2.5, 3] with
    | .ok (g, s) => some (g.beats, g.downbeats, g.bars, s) | .error _ => none) =
    some ([0, 0.5, 1, 1.5, 2, 2.5, 3], [0, 2], [0, 2], 1) := by decide +kernel

end Verif.Props
