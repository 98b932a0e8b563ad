/-
Property theorems C133: the bars of a beat grid (src/features/beat_tracking/mod.rs).
-/
import Verif.Props.Grid

namespace Verif.Props
open Verif Verif.Beat Verif.F32

/-! ### Specification -/

/-- beats that keep the tempo from bar to bar: beats up to seven apart are as far apart as the tempo says, to a fifth of
a beat (the tempo itself may be about 3 percent off, and may drift) -/
def KeepsTempo (bpm : F32) (beats : List F32) : Prop :=
  (∀ b ∈ beats, -65536 ≤ b ∧ b ≤ 65536) ∧
  ∀ i j, ∀ hij : i < j, j ≤ i + 7 → ∀ h : j < beats.length,
    |beats[j].val - (beats[i]'(by omega)).val - (j - i : ℕ) * (60 / bpm.val)| ≤ 1 / 5 * (60 / bpm.val)

/-- every `n`-th beat, from the first on -/
def everyNth (n : ℕ) (beats : List F32) : List F32 := (beats.zipIdx.filter (fun p => decide (n ∣ p.2))).map Prod.fst

/-! ### Rounding -/

/-- a beat within 9 percent of the bar line is accepted, rounding included -/
theorem bar_accept {bpm a b : F32} {n : ℕ} (hn : n = 4 ∨ n = 3 ∨ n = 6) (hlo : EPS < bpm) (hhi : bpm ≤ 300)
    (ha : -65536 ≤ a ∧ a ≤ 65536) (hb : -65536 ≤ b ∧ b ≤ 65536)
    (hg : |b.val - a.val - 60 / bpm.val * n| ≤ 0.09 * (60 / bpm.val * n)) :
    (b - (a + 60 / bpm * F32.ofNat n)).abs ≤ 60 / bpm * F32.ofNat n * 0.1 := by
  obtain ⟨hE, eE⟩ : ∃ h, EPS = fin EPS.val h := ⟨by decide +kernel, by decide +kernel⟩
  obtain ⟨h3, e3⟩ : ∃ h, (300 : F32) = fin 300 h := ⟨by decide +kernel, by decide +kernel⟩
  obtain ⟨h6, e6⟩ : ∃ h, (60 : F32) = fin 60 h := ⟨by decide +kernel, by decide +kernel⟩
  obtain ⟨hP, eP⟩ : ∃ h, (65536 : F32) = fin 65536 h := ⟨by decide +kernel, by decide +kernel⟩
  obtain ⟨hN, eN⟩ : ∃ h, (-65536 : F32) = fin (-65536) h := ⟨by decide +kernel, by decide +kernel⟩
  obtain ⟨h1, e1⟩ : ∃ h, (0.1 : F32) = fin (13421773 / 134217728) h := ⟨by decide +kernel, by decide +kernel⟩
  have hEp : (1 / 2 ^ 34 : ℚ) < EPS.val := by decide +kernel
  rw [eN, eP] at ha hb
  obtain ⟨x, hx, rfl, x1, x2⟩ := between_cases ha.1 ha.2
  obtain ⟨y, hy, rfl, y1, y2⟩ := between_cases hb.1 hb.2
  have hlo' := F32.le_of_lt hlo
  rw [eE] at hlo'; rw [e3] at hhi
  obtain ⟨p, hp, rfl, p1, p2⟩ := between_cases hlo' hhi
  have hp0 : 0 < p := by
    have : (0:ℚ) < 1 / 2 ^ 34 := by norm_num
    linarith
  have hn24 : n ≤ 2 ^ 24 := by rcases hn with h | h | h <;> rw [h] <;> norm_num
  have hnq : (3 : ℚ) ≤ n ∧ (n : ℚ) ≤ 6 := by rcases hn with h | h | h <;> rw [h] <;> norm_num
  have hr1 : (1 / 5 : ℚ) ≤ 60 / p := by rw [le_div_iff₀ hp0]; linarith
  have hr2 : 60 / p ≤ 2 ^ 40 := by
    rw [div_le_iff₀ hp0]
    have : (60 : ℚ) ≤ 2 ^ 40 * (1 / 2 ^ 34) := by norm_num
    linarith
  have hgrid : ∀ e : ℤ, -149 ≤ e → e < 128 → OnGrid (pow2 e) ∧ |pow2 e| < pow2 128 := fun e he he2 =>
    ⟨onGrid_pow2 he, by rw [abs_of_pos (pow2_pos _)]; exact pow2_lt he2⟩
  have hp50 : pow2 50 = 2 ^ 50 := by have := pow2_nat 50; exact_mod_cast this
  rw [e6, div_fin hp0.ne', ofNat_exact hn24, e1]
  obtain ⟨hI, eI, bI⟩ := rnd_finite_of_abs_le (q := 60 / p) (hgrid 50 (by norm_num) (by norm_num))
    (by rw [hp50, abs_of_nonneg (by positivity)]; norm_num at hr2 ⊢; linarith)
  rw [eI, mul_fin]
  have hIu := rndQ_up (q := 60 / p) (by positivity)
  have hId := rndQ_down (q := 60 / p) (by positivity)
  generalize hIdef : rndQ (60 / p) = I at *
  replace hg : |y - x - 60 / p * n| ≤ 0.09 * (60 / p * n) := hg
  generalize hr : 60 / p = r at *
  unfold eps eta at hIu hId
  norm_num at hIu hId
  have hI0 : 0 ≤ I := by linarith
  have hI2 : I ≤ 2 ^ 41 := by norm_num at hr2 ⊢; linarith
  have hIn : 0 ≤ I * n := by have := hnq.1; positivity
  have hIn2 : I * n ≤ 2 ^ 41 * 6 := by
    have := hnq.2
    exact _root_.mul_le_mul hI2 this (by linarith [hnq.1]) (by norm_num)
  obtain ⟨hB, eB, bB⟩ := rnd_finite_of_abs_le (q := I * n) (hgrid 50 (by norm_num) (by norm_num))
    (by rw [hp50, abs_of_nonneg hIn]; norm_num at hIn2 ⊢; linarith)
  rw [eB, add_fin, mul_fin]
  have hBu := rndQ_up hIn
  have hBd := rndQ_down hIn
  generalize rndQ (I * n) = B at *
  unfold eps eta at hBu hBd
  norm_num at hBu hBd
  -- the exact bar
  have hR : (3 / 5 : ℚ) ≤ r * n := by nlinarith [hnq.1]
  have hInu : I * n ≤ r * n * (1 + 1 / 10 ^ 7) + 1 / 10 ^ 8 := by
    have : I ≤ r * (1 + 1 / 2 ^ 24) + 1 / 2 ^ 150 := by norm_num; linarith
    have h2 := _root_.mul_le_mul_of_nonneg_right this (by linarith [hnq.1] : (0:ℚ) ≤ n)
    have h3 : (0:ℚ) ≤ r * n := by linarith
    have h4 : (1 / 2 ^ 150 : ℚ) * n ≤ 1 / 10 ^ 8 := by
      have := hnq.2; norm_num; linarith
    nlinarith
  have hInd : r * n * (1 - 1 / 10 ^ 7) - 1 / 10 ^ 8 ≤ I * n := by
    have : r * (1 - 1 / 2 ^ 24) - 1 / 2 ^ 150 ≤ I := by norm_num; linarith
    have h2 := _root_.mul_le_mul_of_nonneg_right this (by linarith [hnq.1] : (0:ℚ) ≤ n)
    have h3 : (0:ℚ) ≤ r * n := by linarith
    have h4 : (1 / 2 ^ 150 : ℚ) * n ≤ 1 / 10 ^ 8 := by
      have := hnq.2; norm_num; linarith
    nlinarith
  have hRmax : r * n ≤ 2 ^ 43 := by
    have := _root_.mul_le_mul hr2 hnq.2 (by linarith [hnq.1] : (0:ℚ) ≤ n) (by norm_num)
    norm_num at this ⊢; linarith
  generalize hRdef : r * n = R at *
  generalize I * (n : ℚ) = J at *
  norm_num at hInu hInd
  have hB1 : R * (1 - 1 / 10 ^ 6) ≤ B := by norm_num; linarith
  have hB2 : B ≤ R * (1 + 1 / 10 ^ 6) := by norm_num; linarith
  have hB0 : 0 ≤ B := by norm_num at hB1; linarith
  have hBmax : B ≤ 2 ^ 44 := by norm_num at hB2 hRmax ⊢; linarith
  -- expected position
  have hxB : |x + B| ≤ 65536 + B := by rw [_root_.abs_le]; constructor <;> linarith
  obtain ⟨hS, eS, bS⟩ := rnd_finite_of_abs_le (q := x + B) (hgrid 50 (by norm_num) (by norm_num))
    (by rw [hp50]; norm_num at hBmax ⊢; linarith)
  rw [eS, sub_fin]
  have hSe := rndQ_err (x + B)
  generalize rndQ (x + B) = S at *
  rw [hp50] at bS
  have hyS : |y - S| ≤ 2 ^ 51 := by
    have := _root_.abs_le.1 bS
    rw [_root_.abs_le]; constructor <;> norm_num at this ⊢ <;> linarith [this.1, this.2]
  have hp51 : pow2 51 = 2 ^ 51 := by have := pow2_nat 51; exact_mod_cast this
  obtain ⟨hD, eD, bD⟩ := rnd_finite_of_abs_le (q := y - S) (hgrid 51 (by norm_num) (by norm_num))
    (by rw [hp51]; exact hyS)
  rw [eD, abs_fin]
  have hDe := rndQ_err (y - S)
  -- tolerance
  have ht0 : 0 ≤ B * (13421773 / 134217728) := by positivity
  obtain ⟨hT, eT, bT⟩ := rnd_finite_of_abs_le (q := B * (13421773 / 134217728)) (hgrid 50 (by norm_num) (by norm_num))
    (by rw [hp50, abs_of_nonneg ht0]; norm_num at hBmax ⊢; linarith)
  rw [eT]
  rw [fin_le_fin]
  have hTd := rndQ_down ht0
  generalize rndQ (B * (13421773 / 134217728)) = T at *
  generalize rndQ (y - S) = D at *
  unfold eps eta at hSe hDe hTd
  norm_num at hSe hDe hTd hB1 hB2 hg
  have a1 := _root_.abs_le.1 hSe
  have a5 : |S - (x + B)| ≤ R * (66 / 10000) := by
    rw [_root_.abs_le]; constructor <;> linarith [a1.1, a1.2]
  have a6 := _root_.abs_le.1 hg
  have a7 := _root_.abs_le.1 a5
  have a8 : |y - S| ≤ R * (968 / 10000) := by
    rw [_root_.abs_le]; constructor <;> linarith [a6.1, a6.2, a7.1, a7.2]
  have a9 : |D| ≤ |y - S| + |D - (y - S)| := by
    have := abs_sub_abs_le_abs_sub D (y - S); linarith
  linarith

/-! ### Walking over the beats -/

theorem zipIdx_drop_cons {l : List F32} {i : ℕ} (h : i < l.length) :
    l.zipIdx.drop i = (l[i], i) :: l.zipIdx.drop (i + 1) := by
  rw [List.drop_eq_getElem_cons (by rw [List.length_zipIdx]; exact h)]
  simp

theorem downbeats_none {bar tol last : F32} : ∀ {l : List F32}, (∀ b ∈ l, ¬ (b - (last + bar)).abs ≤ tol) →
    downbeatsFrom bar tol last l = []
  | [], _ => rfl
  | b :: l, h => by
    rw [downbeatsFrom, if_neg (h b (by simp))]
    exact downbeats_none fun x hx => h x (by simp [hx])

/-- if the acceptance test is right for the next `n` beats after every bar line, the bar lines are every `n`-th beat; if
no later beat is accepted, there are no further bar lines -/
theorem downbeats_walk {bar tol : F32} {n : ℕ} {l r : List F32}
    (hacc : ∀ k, n ∣ k → ∀ h : k + n < l.length, (l[k + n] - (l[k] + bar)).abs ≤ tol)
    (hrej : ∀ k j, n ∣ k → ∀ hkj : k < j, j < k + n → ∀ h : j < l.length, ¬ (l[j] - (l[k] + bar)).abs ≤ tol)
    (hend : ∀ k, n ∣ k → l.length ≤ k + n → ∀ h : k < l.length, ∀ b ∈ r, ¬ (b - (l[k] + bar)).abs ≤ tol) :
    ∀ (m i k : ℕ), n ∣ k → ∀ hki : k ≤ i, i < k + n → ∀ h : i < l.length, l.length - (i + 1) = m →
      downbeatsFrom bar tol l[k] (l.drop (i + 1) ++ r) =
        ((l.zipIdx.drop (i + 1)).filter (fun p => decide (n ∣ p.2))).map Prod.fst
  | 0, i, k, hk, h1, h2, h, hm => by
    rw [List.drop_eq_nil_of_le (by omega), List.drop_eq_nil_of_le (by rw [List.length_zipIdx]; omega), List.nil_append]
    exact downbeats_none (hend k hk (by omega) (by omega))
  | m + 1, i, k, hk, h1, h2, h, hm => by
    have hi : i + 1 < l.length := by omega
    rw [zipIdx_drop_cons hi, List.drop_eq_getElem_cons hi, List.cons_append, downbeatsFrom, List.filter_cons]
    by_cases hj : i + 1 = k + n
    · have hd : n ∣ i + 1 := by rw [hj]; exact Nat.dvd_add hk (Nat.dvd_refl n)
      have ha := hacc k hk (by omega)
      simp only [← hj] at ha
      rw [if_pos ha, if_pos (by simpa using hd), List.map_cons,
        downbeats_walk hacc hrej hend m (i + 1) (i + 1) hd (by omega) (by omega) hi (by omega)]
    · have hd : ¬ n ∣ i + 1 := by
        intro hd
        have := Nat.le_of_dvd (by omega) ((Nat.dvd_sub hd hk))
        omega
      rw [if_neg (hrej k (i + 1) hk (by omega) (by omega) hi), if_neg (by simpa using hd),
        downbeats_walk hacc hrej hend m (i + 1) k hk (by omega) (by omega) hi (by omega)]

theorem gridOf_downbeats {beats : List BeatPos} {bpm : F32} {sig : TimeSig} {g : Grid} (h : gridOf beats bpm sig = .ok g) :
    ∃ b bs, g.beats = b :: bs ∧ g.downbeats = b :: downbeatsFrom (60 / bpm * F32.ofNat sig.beatsPerBar)
      (60 / bpm * F32.ofNat sig.beatsPerBar * 0.1) b bs := by
  have hne := (gridOf_spec h).1
  unfold gridOf at h
  split_ifs at h
  obtain ⟨bs, hs, h⟩ := R.bind_eq_ok.1 h
  obtain ⟨ds, hd, h⟩ := R.bind_eq_ok.1 h
  cases h
  cases bs with
  | nil => exact absurd rfl hne
  | cons b bs =>
    refine ⟨b, bs, rfl, ?_⟩
    unfold downbeats at hd
    dsimp only at hd
    split_ifs at hd
    cases hd
    rfl

theorem tempo_bounds {M : Libm} {bpm : F32} {onsets : List F32} {beats : List BeatPos} (hbpm : bpm ≠ nan)
    (ht : trackBeats M bpm onsets = .ok beats) : EPS < bpm ∧ bpm ≤ 300 := by
  have hbb : ¬ (bpm ≤ EPS ∨ 300 < bpm) := by
    intro hc; unfold trackBeats at ht; rw [if_pos hc] at ht; simp at ht
  push Not at hbb
  exact ⟨lt_of_not_le (by decide +kernel) hbpm hbb.1, le_of_not_lt hbpm (by decide +kernel) hbb.2⟩

theorem tempo_pos {bpm : F32} (h1 : EPS < bpm) (h2 : bpm ≤ 300) : 0 < bpm.val := by
  obtain ⟨hE, eE⟩ : ∃ h, EPS = fin EPS.val h := ⟨by decide +kernel, by decide +kernel⟩
  obtain ⟨h3, e3⟩ : ∃ h, (300 : F32) = fin 300 h := ⟨by decide +kernel, by decide +kernel⟩
  have hEp : (0 : ℚ) < EPS.val := by decide +kernel
  have h1' := F32.le_of_lt h1
  rw [eE] at h1'; rw [e3] at h2
  obtain ⟨p, hp, rfl, p1, p2⟩ := between_cases h1' h2
  exact lt_of_lt_of_le hEp p1

theorem keeps_accept {bpm : F32} {l : List F32} {n : ℕ} (hn : n = 4 ∨ n = 3 ∨ n = 6) (h1 : EPS < bpm) (h2 : bpm ≤ 300)
    (hl : KeepsTempo bpm l) {k : ℕ} (h : k + n < l.length) :
    (l[k + n] - (l[k] + 60 / bpm * F32.ofNat n)).abs ≤ 60 / bpm * F32.ofNat n * 0.1 := by
  have hp := tempo_pos h1 h2
  have hT : 0 < 60 / bpm.val := by positivity
  refine bar_accept hn h1 h2 (hl.1 _ (List.getElem_mem _)) (hl.1 _ (List.getElem_mem _)) ?_
  have := hl.2 k (k + n) (by omega) (by omega) h
  rw [show k + n - k = n by omega] at this
  generalize 60 / bpm.val = T at *
  have h3 : (3 : ℚ) ≤ n := by rcases hn with rfl | rfl | rfl <;> norm_num
  rw [mul_comm T (n : ℚ)]
  refine this.trans ?_
  norm_num
  nlinarith

theorem keeps_mono {bpm : F32} {l : List F32} (h1 : EPS < bpm) (h2 : bpm ≤ 300) (hl : KeepsTempo bpm l) {i : ℕ} :
    ∀ (d : ℕ) (h : i + d < l.length), l[i].val ≤ l[i + d].val
  | 0, _ => _root_.le_refl _
  | d + 1, h => by
    have hp := tempo_pos h1 h2
    have hT : 0 < 60 / bpm.val := by positivity
    refine (keeps_mono h1 h2 hl d (by omega)).trans ?_
    have b := abs_le.1 (hl.2 (i + d) (i + (d + 1)) (by omega) (by omega) h)
    rw [show i + (d + 1) - (i + d) = 1 by omega, Nat.cast_one, one_mul] at b
    linarith [b.1]

theorem keeps_reject {bpm : F32} {l : List F32} {n : ℕ} (hn : n = 4 ∨ n = 3 ∨ n = 6) (h1 : EPS < bpm) (h2 : bpm ≤ 300)
    (hl : KeepsTempo bpm l) {k j : ℕ} (hkj : k < j) (hj : j < k + n ∨ k + n + 1 ≤ j) (h : j < l.length) :
    ¬ (l[j] - (l[k] + 60 / bpm * F32.ofNat n)).abs ≤ 60 / bpm * F32.ofNat n * 0.1 := by
  intro hacc
  have hp := tempo_pos h1 h2
  have hT : 0 < 60 / bpm.val := by positivity
  obtain ⟨a1, a2⟩ := bar_rational hn h1 h2 (hl.1 _ (List.getElem_mem _)) (hl.1 _ (List.getElem_mem _)) hacc
  have h6 : (n : ℚ) ≤ 6 := by rcases hn with rfl | rfl | rfl <;> norm_num
  rcases hj with hj | hj
  · have b := abs_le.1 (hl.2 k j hkj (by omega) h)
    generalize 60 / bpm.val = T at *
    generalize l[j].val - l[k].val = d at *
    have hc : ((j - k : ℕ) : ℚ) ≤ n - 1 := by
      have : (j - k) + 1 ≤ n := by omega
      have : (((j - k : ℕ) + 1 : ℕ) : ℚ) ≤ n := by exact_mod_cast this
      push_cast at this; linarith
    have := mul_le_mul_of_nonneg_right hc hT.le
    norm_num at a1
    nlinarith [b.2]
  · obtain ⟨d, rfl⟩ : ∃ d, j = k + n + 1 + d := ⟨j - (k + n + 1), by omega⟩
    have hm := keeps_mono h1 h2 hl d h
    have b := abs_le.1 (hl.2 k (k + n + 1) (by omega) (by omega) (by omega))
    rw [show k + n + 1 - k = n + 1 by omega] at b
    push_cast at b
    generalize 60 / bpm.val = T at *
    norm_num at a2
    nlinarith [b.1]

theorem everyNth_eq {n : ℕ} {b : F32} {bs : List F32} :
    everyNth n (b :: bs) = b :: (((b :: bs).zipIdx.drop 1).filter (fun p => decide (n ∣ p.2))).map Prod.fst := by
  unfold everyNth
  simp

/-! ### The properties -/

/-- **C133 (partial).** If the beats of a returned grid keep the tempo, its bars are complete: there is a metre of 4, 3 or
6 beats such that the downbeats are exactly every fourth (third, sixth) beat, to the end of the grid.  Full statement:
the same for beats that keep the tempo except for a missing beat. -/
theorem C133_bars_partial (M : Libm) (fuel : ℕ) (bpm conf : F32) (onsets : List F32) (g : Grid) (st : F32)
    (h : beatGrid M fuel bpm conf onsets = .ok (g, st)) (hbpm : bpm ≠ nan) (hk : KeepsTempo bpm g.beats) :
    ∃ n : ℕ, (n = 4 ∨ n = 3 ∨ n = 6) ∧ g.downbeats = everyNth n g.beats := by
  obtain ⟨_, sorted, beats, _, beats', sig, _, _, ht, _, _, _, _, hg, _⟩ := beatGrid_ok h
  obtain ⟨h1, h2⟩ := tempo_bounds hbpm ht
  have hn : sig.beatsPerBar = 4 ∨ sig.beatsPerBar = 3 ∨ sig.beatsPerBar = 6 := by cases sig <;> simp [TimeSig.beatsPerBar]
  obtain ⟨b, bs, e1, e2⟩ := gridOf_downbeats hg
  refine ⟨_, hn, ?_⟩
  rw [e2, e1, everyNth_eq]
  rw [e1] at hk
  have := downbeats_walk (bar := 60 / bpm * F32.ofNat sig.beatsPerBar) (tol := 60 / bpm * F32.ofNat sig.beatsPerBar * 0.1)
    (n := sig.beatsPerBar) (l := b :: bs) (r := []) (fun k _ hk' => keeps_accept hn h1 h2 hk hk')
    (fun k j _ hkj hj hl => keeps_reject hn h1 h2 hk hkj (Or.inl hj) hl) (fun _ _ _ _ b hb => by cases hb)
    _ 0 0 (Nat.dvd_zero _) (Nat.le_refl 0) (by omega) (by simp) rfl
  simpa using this

/-- **C133 is violated.** A bar at whose end (to 11 percent) there is no beat is the last one: however many beats follow,
there is no further downbeat. -/
theorem C133_violated (M : Libm) (fuel : ℕ) (bpm conf : F32) (onsets : List F32) (g : Grid) (st : F32)
    (h : beatGrid M fuel bpm conf onsets = .ok (g, st)) (hbpm : bpm ≠ nan) (hb : ∀ b ∈ g.beats, -65536 ≤ b ∧ b ≤ 65536) :
    ∃ n : ℕ, (n = 4 ∨ n = 3 ∨ n = 6) ∧ ∀ (pre post : List F32) (d : F32), g.downbeats = pre ++ d :: post →
      (∀ b ∈ g.beats, 0.11 * (60 / bpm.val * n) < |b.val - d.val - 60 / bpm.val * n|) → post = [] := by
  obtain ⟨n, hn, hc⟩ := C27_bar_length M fuel bpm conf onsets g st h hbpm hb
  refine ⟨n, hn, fun pre post d e hno => ?_⟩
  cases post with
  | nil => rfl
  | cons d' post =>
    exfalso
    rw [e] at hc
    obtain ⟨h1, h2⟩ := (List.isChain_cons_cons.1 (List.isChain_append.1 hc).2.1).1
    have hm : d' ∈ g.beats := (C27_grid M fuel bpm conf onsets g st h).2.2.2.1.subset (by rw [e]; simp)
    refine absurd (hno d' hm) (_root_.not_lt.2 ?_)
    generalize 60 / bpm.val * n = R at *
    rw [abs_le]
    norm_num at h1 h2 ⊢
    constructor <;> linarith

/-- **C133 is violated** by one missing beat: if the beat at a bar line is missing from beats that otherwise keep the
tempo, the downbeats are those before the gap, however long the piece. -/
theorem C133_violated_gap {beats : List BeatPos} {bpm : F32} {sig : TimeSig} {g : Grid} (hg : gridOf beats bpm sig = .ok g)
    (h1 : EPS < bpm) (h2 : bpm ≤ 300) {full : List F32} {k : ℕ} (hk : KeepsTempo bpm full) (k1 : 1 ≤ k)
    (hlen : sig.beatsPerBar * k < full.length) (he : g.beats = full.eraseIdx (sig.beatsPerBar * k)) :
    g.downbeats = everyNth sig.beatsPerBar (full.take (sig.beatsPerBar * k)) := by
  have hn : sig.beatsPerBar = 4 ∨ sig.beatsPerBar = 3 ∨ sig.beatsPerBar = 6 := by cases sig <;> simp [TimeSig.beatsPerBar]
  obtain ⟨b, bs, e1, e2⟩ := gridOf_downbeats hg
  generalize sig.beatsPerBar = n at *
  have hnk : n ≤ n * k := Nat.le_mul_of_pos_right n k1
  rw [e1, List.eraseIdx_eq_take_drop_succ] at he
  obtain ⟨c, cs, hc⟩ : ∃ c cs, full.take (n * k) = c :: cs := by
    refine List.exists_cons_of_ne_nil fun h => ?_
    have := congrArg List.length h
    rw [List.length_take, List.length_nil] at this
    omega
  rw [hc, List.cons_append] at he
  obtain ⟨rfl, rfl⟩ := List.cons.inj he
  rw [e2, hc, everyNth_eq]
  have hcl : (b :: cs).length = n * k := by rw [← hc, List.length_take]; omega
  have hget : ∀ i (hi : i < (b :: cs).length), (b :: cs)[i] = full[i]'(by omega) := by
    intro i hi
    simp only [← hc]
    rw [List.getElem_take]
  have := downbeats_walk (bar := 60 / bpm * F32.ofNat n) (tol := 60 / bpm * F32.ofNat n * 0.1)
    (n := n) (l := b :: cs) (r := full.drop (n * k + 1))
    (fun i _ hi => by rw [hget _ hi, hget i (by omega)]; exact keeps_accept hn h1 h2 hk _)
    (fun i j _ hij hj hl => by rw [hget _ hl, hget i (by omega)]; exact keeps_reject hn h1 h2 hk hij (Or.inl hj) _)
    (fun i hi hil hlt x hx => by
      rw [hget _ hlt]
      obtain ⟨j, hj, rfl⟩ := List.mem_iff_getElem.1 hx
      rw [List.getElem_drop]
      have : i + n ≤ n * k := by
        obtain ⟨c, rfl⟩ := hi
        rw [hcl] at hlt
        have : c < k := Nat.lt_of_mul_lt_mul_left hlt
        calc n * c + n = n * (c + 1) := by ring
          _ ≤ n * k := Nat.mul_le_mul_left n this
      exact keeps_reject hn h1 h2 hk (by omega) (Or.inr (by omega)) _)
    _ 0 0 (Nat.dvd_zero _) (Nat.le_refl 0) (by omega) (by simp) rfl
  simpa using this

/-! ### Witnesses -/

theorem keepsTempo_of {bpm : F32} {l : List F32} (h1 : ∀ b ∈ l, -65536 ≤ b ∧ b ≤ 65536)
    (h2 : ∀ j < l.length, ∀ i < j, -(1 / 5 * (60 / bpm.val)) ≤ (l.getD j 0).val - (l.getD i 0).val - (j - i : ℕ) * (60 / bpm.val) ∧
      (l.getD j 0).val - (l.getD i 0).val - (j - i : ℕ) * (60 / bpm.val) ≤ 1 / 5 * (60 / bpm.val)) :
    KeepsTempo bpm l := by
  refine ⟨h1, fun i j hij _ h => ?_⟩
  have hj : l.getD j 0 = l[j] := by rw [List.getD_eq_getElem?_getD, List.getElem?_eq_getElem h]; rfl
  have hi : l.getD i 0 = l[i] := by rw [List.getD_eq_getElem?_getD, List.getElem?_eq_getElem (by omega)]; rfl
  rw [abs_le, ← hi, ← hj]
  exact h2 j h i hij

example : KeepsTempo 120 [0, 0.5, 1, 1.53125, 2, 2.46875] := keepsTempo_of (by decide +kernel) (by decide +kernel)

/-- non-vacuity: a grid of two bars -/
example : ∃ g st, beatGrid Libm.demo 300 120 1 [0, 0.5, 1, 1.5, 2, 2.5, 3] = .ok (g, st) ∧ KeepsTempo 120 g.beats ∧
    everyNth 4 g.beats = [0, 2] := by
  have h : (match beatGrid Libm.demo 300 120 1 [0, 0.5, 1, 1.5, 2, 2.5, 3] with
    | .ok (g, _) => some g.beats | .error _ => none) = some [0, 0.5, 1, 1.5, 2, 2.5, 3] := by decide +kernel
  cases e : beatGrid Libm.demo 300 120 1 [0, 0.5, 1, 1.5, 2, 2.5, 3] with
  | error _ => rw [e] at h; cases h
  | ok r =>
    obtain ⟨g, st⟩ := r
    rw [e] at h
    have hb : g.beats = [0, 0.5, 1, 1.5, 2, 2.5, 3] := Option.some.inj h
    refine ⟨g, st, rfl, ?_, by rw [hb]; decide +kernel⟩
    rw [hb]
    exact keepsTempo_of (by decide +kernel) (by decide +kernel)

/-- one missing beat: the eight bars of thirty-three beats at 120 BPM lose all bar lines from the third on -/
def gappy : List F32 := (((List.range 33).map (fun i => F32.ofNat i * 0.5)).eraseIdx 8)

example : gridOf (gappy.map (fun t => (⟨t, 1⟩ : BeatPos))) 120 .fourFour = .ok ⟨[0, 2], gappy, [0, 2]⟩ := by decide +kernel

end Verif.Props
