/-
What the comb filterbank makes of a metronome (C101): src/features/period/comb_filter.rs.
-/
import Verif.Props.Pulse
import Verif.Props.Estimators

namespace Verif.Props
open Verif F32 Period

/-! ### Specification -/

/-- `m` clicks, `P` samples apart, the first one at sample `f` -/
def clicks (f P m : ℕ) : List ℕ := (List.range m).map (fun i => f + i * P)

/-- at the tempo `bpm` a beat takes `P` samples -/
def BeatLength (sr : ℕ) (bpm : F32) (P : ℕ) : Prop := 60 * F32.ofNat sr / bpm = F32.ofNat P

/-- `bpm` is one of the tempos `min_bpm`, `min_bpm + resolution`, ... up to `max_bpm` -/
def Scanned (minB maxB res bpm : F32) : Prop := ∃ k, gridBpm minB res k = bpm ∧ bpm ≤ maxB + 1e-10

/-! ### Distances of whole sample positions -/

theorem dist_exact {x y : ℕ} (hx : x ≤ 2 ^ 24) (hy : y ≤ 2 ^ 24) :
    (F32.ofNat x - F32.ofNat y).abs = F32.ofNat ((x : ℤ) - y).natAbs := by
  have hd : ((x : ℤ) - y).natAbs ≤ 2 ^ 24 := by omega
  rw [ofNat_exact hx, ofNat_exact hy, ofNat_exact hd, sub_fin]
  have hq : |(x : ℚ) - y| = (((x : ℤ) - y).natAbs : ℚ) := by
    rw [Nat.cast_natAbs]
    push_cast
    rfl
  have hg : OnGrid ((x : ℚ) - y) ∧ |(x : ℚ) - y| < pow2 128 := by
    have g := grid_nat hd
    rcases le_total y x with h | h
    · have e : ((x : ℚ) - y) = (((x : ℤ) - y).natAbs : ℚ) := by
        rw [← hq, abs_of_nonneg]
        have : (y : ℚ) ≤ x := by exact_mod_cast h
        linarith
      rw [e]; exact g
    · have e : ((x : ℚ) - y) = -(((x : ℤ) - y).natAbs : ℚ) := by
        rw [← hq, abs_of_nonpos]
        · ring
        · have : (x : ℚ) ≤ y := by exact_mod_cast h
          linarith
      rw [e, abs_neg]; exact ⟨onGrid_neg g.1, g.2⟩
  rw [rnd_val hg, abs_fin]
  congr 1

theorem toUsize_ofNat {d : ℕ} (h : d ≤ 2 ^ 24) : (F32.ofNat d).toUsize = d := by
  rw [ofNat_exact h]
  show Nat.min ⌊(d : ℚ)⌋.toNat usizeMax = d
  rw [Int.floor_natCast, Int.toNat_natCast]
  exact Nat.min_eq_left (by unfold usizeMax; omega)

theorem nearest_spec {onsets : List ℕ} {beat : F32} (hne : onsets ≠ []) :
    ∃ o ∈ onsets, nearest onsets beat = some o ∧
      ∀ x ∈ onsets, (F32.ofNat o - beat).abs.toUsize ≤ (F32.ofNat x - beat).abs.toUsize := by
  have key : ∀ (l : List ℕ) (a : ℕ), ∃ o ∈ a :: l, l.foldl (fun best x =>
      if (F32.ofNat x - beat).abs.toUsize < (F32.ofNat best - beat).abs.toUsize then x else best) a = o ∧
      ∀ x ∈ a :: l, (F32.ofNat o - beat).abs.toUsize ≤ (F32.ofNat x - beat).abs.toUsize := by
    intro l
    induction l with
    | nil => intro a; exact ⟨a, by simp, rfl, by simp⟩
    | cons b l ih =>
      intro a
      rw [List.foldl_cons]
      split_ifs with h
      · obtain ⟨o, ho, e, hm⟩ := ih b
        refine ⟨o, List.mem_cons_of_mem _ ho, e, fun x hx => ?_⟩
        rcases List.mem_cons.1 hx with rfl | hx
        · exact Nat.le_trans (hm b (by simp)) (Nat.le_of_lt h)
        · exact hm x hx
      · obtain ⟨o, ho, e, hm⟩ := ih a
        refine ⟨o, ?_, e, fun x hx => ?_⟩
        · rcases List.mem_cons.1 ho with rfl | ho <;> simp_all
        · rcases List.mem_cons.1 hx with rfl | hx
          · exact hm x (by simp)
          · rcases List.mem_cons.1 hx with rfl | hx
            · exact Nat.le_trans (hm a (by simp)) (Nat.le_of_not_lt h)
            · exact hm x (by simp [hx])
  rcases onsets with _ | ⟨a, l⟩
  · exact absurd rfl hne
  · obtain ⟨o, ho, e, hm⟩ := key l a
    exact ⟨o, ho, by rw [← e]; rfl, hm⟩

/-- with every position and beat a whole number up to `2^24`: aligned means some click is within the tolerance -/
theorem aligned_iff {onsets : List ℕ} {Q k : ℕ} {tolS : F32} (hne : onsets ≠ []) (ho : ∀ o ∈ onsets, o ≤ 2 ^ 24)
    (hk : k * Q ≤ 2 ^ 24) (hQ : 0 < Q) (hQ' : Q ≤ 2 ^ 24) :
    aligned onsets (F32.ofNat Q) tolS k = true ↔ ∃ o ∈ onsets, F32.ofNat ((o : ℤ) - (k * Q : ℕ)).natAbs ≤ tolS := by
  have hk' : k ≤ 2 ^ 24 := Nat.le_trans (Nat.le_mul_of_pos_right k hQ) hk
  have hbeat : F32.ofNat k * F32.ofNat Q = F32.ofNat (k * Q) := by
    rw [ofNat_exact hk', ofNat_exact hQ', mul_fin]
    unfold F32.ofNat
    push_cast
    rfl
  obtain ⟨o, hom, hon, hmin⟩ := nearest_spec (beat := F32.ofNat k * F32.ofNat Q) hne
  unfold aligned
  dsimp only
  rw [hon]
  dsimp only
  rw [decide_eq_true_eq]
  rw [hbeat] at hmin ⊢
  rw [dist_exact (ho o hom) hk]
  constructor
  · exact fun h => ⟨o, hom, h⟩
  · rintro ⟨x, hx, h⟩
    refine F32.le_trans (ofNat_mono ?_) h
    have := hmin x hx
    rw [dist_exact (ho o hom) hk, dist_exact (ho x hx) hk, toUsize_ofNat, toUsize_ofNat] at this
    · exact this
    · have := ho x hx; omega
    · have := ho o hom; omega

/-- the number of beats tried: up to the last click, rounded up -/
theorem beats_tried {last Q : ℕ} (hQ : 0 < Q) (hl : last + Q ≤ 2 ^ 24) :
    (F32.ceil (F32.ofNat last / F32.ofNat Q)).toUsize * Q ≤ last + Q ∧
      ∀ m, last = m * Q → (F32.ceil (F32.ofNat last / F32.ofNat Q)).toUsize = m := by
  have hQq : (0 : ℚ) < Q := by exact_mod_cast hQ
  have hx : F32.ofNat last / F32.ofNat Q = rnd ((last : ℚ) / Q) := by
    rw [ofNat_exact (by omega), ofNat_exact (by omega), div_fin hQq.ne']
  have hc : ∀ c : ℕ, c ≤ 2 ^ 24 → (last : ℚ) / Q ≤ c → (F32.ceil (F32.ofNat last / F32.ofNat Q)).toUsize ≤ c := by
    intro c hc h
    rw [hx]
    have h0 : (0 : ℚ) ≤ (last : ℚ) / Q := by positivity
    obtain ⟨hq, e, he1, he2⟩ := rnd_between (x := (last : ℚ) / Q) (grid_nat (Nat.zero_le _ : 0 ≤ 2 ^ 24)) (grid_nat hc)
      (by push_cast; exact h0) h
    rw [e]
    show (rnd ((⌈rndQ ((last : ℚ) / Q)⌉ : ℤ) : ℚ)).toUsize ≤ c
    have h1 : ⌈rndQ ((last : ℚ) / Q)⌉ ≤ (c : ℤ) := Int.ceil_le.2 (by exact_mod_cast he2)
    have h2 : rnd ((⌈rndQ ((last : ℚ) / Q)⌉ : ℤ) : ℚ) ≤ fin (c : ℚ) (grid_nat hc) := rnd_le_fin (by exact_mod_cast h1)
    exact toUsize_le h2
  constructor
  · have hdiv : last / Q * Q ≤ last := Nat.div_mul_le_self ..
    by_cases hm : last % Q = 0
    · have := hc (last / Q) (by have := Nat.le_mul_of_pos_right (last / Q) hQ; omega) (by
        rw [div_le_iff₀ hQq]
        have : last = last / Q * Q := by have := Nat.div_add_mod last Q; rw [Nat.mul_comm] at this; omega
        exact_mod_cast this.le)
      have := Nat.mul_le_mul_right Q this
      omega
    · have := hc (last / Q + 1) (by have := Nat.le_mul_of_pos_right (last / Q) hQ; omega) (by
        rw [div_le_iff₀ hQq]
        have : last ≤ (last / Q + 1) * Q := by
          have h1 := Nat.div_add_mod last Q
          have h2 := Nat.mod_lt last hQ
          rw [Nat.mul_comm] at h1
          rw [Nat.add_mul]
          omega
        exact_mod_cast this)
      have := Nat.mul_le_mul_right Q this
      rw [Nat.add_mul] at this
      omega
  · rintro m rfl
    have hm : m ≤ 2 ^ 24 := by have := Nat.le_mul_of_pos_right m hQ; omega
    rw [hx, show (((m * Q : ℕ) : ℚ) / Q) = m from by push_cast; field_simp, rnd_val (grid_nat hm)]
    show (rnd ((⌈(m : ℚ)⌉ : ℤ) : ℚ)).toUsize = m
    rw [Int.ceil_natCast]
    exact toUsize_ofNat hm

/-! ### Scores of a metronome -/

/-- clicks on every beat: full score -/
theorem score_full {onsets : List ℕ} {sr Q n : ℕ} {bpm tol : F32} (hb : BeatLength sr bpm Q) (hQ : 0 < Q)
    (hl : onsets.getLast? = some (n * Q)) (hfit : n * Q + Q ≤ 2 ^ 24) (ho : ∀ o ∈ onsets, o ≤ 2 ^ 24)
    (hall : ∀ k ≤ n, k * Q ∈ onsets) (ht0 : 0 ≤ tol) (ht : tol ≤ 0.15) : score onsets sr bpm tol = .ok 1 := by
  have hQ1 : 1 ≤ F32.ofNat Q := one_le_ofNat hQ
  have hne : onsets ≠ [] := by rintro rfl; simp at hl
  unfold score
  rw [hl]
  dsimp only
  rw [show 60 * F32.ofNat sr / bpm = F32.ofNat Q from hb, if_neg (not_lt_of_le hQ1),
    (beats_tried hQ (by omega)).2 n rfl, if_neg (by have := Nat.le_mul_of_pos_right n hQ; unfold usizeMax; omega)]
  have hc : (List.range (n + 1)).countP (aligned onsets (F32.ofNat Q) (F32.ofNat Q * tol)) = n + 1 := by
    rw [List.countP_eq_length.2, List.length_range]
    intro k hk
    have hk' : k ≤ n := by have := List.mem_range.1 hk; omega
    have hkQ : k * Q ≤ n * Q := Nat.mul_le_mul_right Q hk'
    rw [aligned_iff hne ho (by omega) hQ (by omega)]
    refine ⟨k * Q, hall k hk', ?_⟩
    rw [show ((k * Q : ℕ) : ℤ) - ((k * Q : ℕ) : ℤ) = 0 from by omega, Int.natAbs_zero, ofNat_zero]
    obtain ⟨t, htg, rfl, t0, -⟩ := between_cases (zero_def ▸ ht0) (show tol ≤ fin (0.15 : F32).val (by decide +kernel) from by
      rw [show fin (0.15 : F32).val (by decide +kernel) = (0.15 : F32) from by decide +kernel]; exact ht)
    rw [ofNat_exact (by omega : Q ≤ 2 ^ 24), mul_fin]
    exact rnd_nonneg (by positivity)
  rw [hc, Period.div_self (ofNat_pos (by omega)) (ofNat_finite (by have := Nat.le_mul_of_pos_right n hQ; omega))]

/-- every click farther than a fifth of a beat from every beat: score 0 -/
theorem score_none {onsets : List ℕ} {sr Q last : ℕ} {bpm tol : F32} (hb : BeatLength sr bpm Q) (hQ : 0 < Q)
    (hl : onsets.getLast? = some last) (hfit : last + Q < 2 ^ 24) (ho : ∀ o ∈ onsets, o ≤ 2 ^ 24)
    (hoff : ∀ o ∈ onsets, ∀ k, Q < 5 * ((o : ℤ) - (k * Q : ℕ)).natAbs) (ht0 : 0 ≤ tol) (ht : tol ≤ 0.15) :
    score onsets sr bpm tol = .ok 0 := by
  have hQ1 : 1 ≤ F32.ofNat Q := one_le_ofNat hQ
  have hne : onsets ≠ [] := by rintro rfl; simp at hl
  unfold score
  rw [hl]
  dsimp only
  have hbt := (beats_tried hQ (Nat.le_of_lt hfit)).1
  rw [show 60 * F32.ofNat sr / bpm = F32.ofNat Q from hb, if_neg (not_lt_of_le hQ1)]
  generalize (F32.ceil (F32.ofNat last / F32.ofNat Q)).toUsize = n at hbt
  have hn := Nat.le_mul_of_pos_right n hQ
  rw [if_neg (by unfold usizeMax; omega)]
  have hc : (List.range (n + 1)).countP (aligned onsets (F32.ofNat Q) (F32.ofNat Q * tol)) = 0 := by
    rw [List.countP_eq_zero]
    intro k hk
    have hk' : k ≤ n := by have := List.mem_range.1 hk; omega
    have hkQ : k * Q ≤ n * Q := Nat.mul_le_mul_right Q hk'
    rw [aligned_iff hne ho (by omega) hQ (by omega)]
    rintro ⟨o, hom, h⟩
    obtain ⟨t, htg, rfl, t0, t1⟩ := between_cases (zero_def ▸ ht0) (show tol ≤ fin (0.15 : F32).val (by decide +kernel) from by
      rw [show fin (0.15 : F32).val (by decide +kernel) = (0.15 : F32) from by decide +kernel]; exact ht)
    have ht1 : t ≤ 0.16 := _root_.le_trans t1 (by decide +kernel)
    have hd : ((o : ℤ) - (k * Q : ℕ)).natAbs ≤ 2 ^ 24 := by have := ho o hom; omega
    have hQq : (1 : ℚ) ≤ Q := by exact_mod_cast hQ
    have h5 : (Q : ℚ) < 5 * (((o : ℤ) - (k * Q : ℕ)).natAbs : ℚ) := by exact_mod_cast hoff o hom k
    rw [ofNat_exact (by omega : Q ≤ 2 ^ 24), mul_fin, ofNat_exact hd] at h
    have h2 : rnd ((Q : ℚ) * t) ≤ rnd ((Q : ℚ) * 0.16) := rnd_mono (by nlinarith)
    have h3 := F32.le_trans h h2
    have hp : pow2 (-126) ≤ |(Q : ℚ) * 0.16| := by
      rw [abs_of_nonneg (by positivity)]
      have : pow2 (-126) ≤ 0.16 := by rw [pow2_eq]; norm_num
      nlinarith
    have hrel := abs_rndQ_sub_le_rel hp
    rw [abs_of_nonneg (by positivity : (0 : ℚ) ≤ (Q : ℚ) * 0.16)] at hrel
    have h24 : pow2 (-24) = 1 / 2 ^ 24 := by rw [pow2_eq]; norm_num
    rw [h24] at hrel
    obtain ⟨hq, e, -⟩ := rnd_between (x := (Q : ℚ) * 0.16) (grid_nat (Nat.zero_le _ : 0 ≤ 2 ^ 24)) (grid_nat (by omega : Q ≤ 2 ^ 24))
      (by push_cast; positivity) (by nlinarith)
    rw [e, fin_le_fin] at h3
    have := (abs_le.1 hrel).2
    nlinarith
  rw [hc, ofNat_zero]
  have : (0 : ℚ) < ((n + 1 : ℕ) : ℚ) := by exact_mod_cast Nat.succ_pos n
  rw [ofNat_exact (by omega), zero_def, div_fin this.ne', zero_div, rnd_zero, zero_def]

/-! ### The search -/

/-- the tolerance at a tempo -/
def tolOf (b : F32) : F32 := F32.clamp (0.1 * (120 / b)) 0.05 0.15

theorem tolOf_range {b : F32} (h : 0 < b) : 0 ≤ tolOf b ∧ tolOf b ≤ 0.15 := by
  have hn : 0.1 * (120 / b) ≠ nan := by
    rcases b with _ | (_ | _) | ⟨v, hv⟩
    · simp [zero_def] at h
    · decide +kernel
    · simp [zero_def] at h
    · rw [zero_def, fin_lt_fin] at h
      rw [show (120 : F32) = fin 120 (by decide +kernel) from by decide +kernel, div_fin h.ne',
        show (0.1 : F32) = fin (0.1 : F32).val (by decide +kernel) from by decide +kernel]
      have h0 := rnd_nonneg (q := 120 / v) (by positivity)
      rcases nonneg_cases h0 with e | ⟨w, hw, e, -⟩
      · rw [e]; decide +kernel
      · rw [e, mul_fin]; exact rnd_ne_nan _
  obtain ⟨h1, h2⟩ := clamp_mem (lo := 0.05) (hi := 0.15) hn (by decide +kernel)
  exact ⟨F32.le_trans (by decide +kernel) h1, h2⟩

theorem combLoop_eq {onsets : List ℕ} {sr : ℕ} {maxB res : F32} (fuel : ℕ) :
    ∀ {b : F32} {cs}, combLoop onsets sr maxB res fuel b = .ok cs →
      ∃ (n : ℕ) (sc : ℕ → F32), cs = (List.range n).map (fun k => (gridBpm b res k, sc k)) ∧
        (∀ k < n, score onsets sr (gridBpm b res k) (tolOf (gridBpm b res k)) = .ok (sc k)) ∧
        (∀ k < n, gridBpm b res k ≤ maxB + 1e-10) ∧ ¬ gridBpm b res n ≤ maxB + 1e-10 := by
  induction fuel with
  | zero =>
    intro b cs h
    unfold combLoop at h
    split_ifs at h with hb
    cases h
    exact ⟨0, fun _ => 0, rfl, by simp, by simp, hb⟩
  | succ fuel ih =>
    intro b cs h
    unfold combLoop at h
    split_ifs at h with hb
    · obtain ⟨s0, hs0, h⟩ := R.bind_eq_ok.1 h
      obtain ⟨rest, hr, h⟩ := R.bind_eq_ok.1 h
      cases h
      obtain ⟨n, sc, rfl, h1, h2, h3⟩ := ih hr
      refine ⟨n + 1, fun k => match k with | 0 => s0 | k + 1 => sc k, ?_, ?_, ?_, h3⟩
      · rw [List.range_succ_eq_map, List.map_cons, List.map_map]
        rfl
      · intro k hk
        rcases k with _ | k
        · exact hs0
        · exact h1 k (by omega)
      · intro k hk
        rcases k with _ | k
        · exact hb
        · exact h2 k (by omega)
    · cases h
      exact ⟨0, fun _ => 0, rfl, by simp, by simp, hb⟩

theorem grid_nan {res : F32} (k : ℕ) : gridBpm nan res k = nan := by
  induction k with
  | zero => rfl
  | succ k ih => show gridBpm (nan + res) res k = nan; simpa using ih

/-- the scan reaches every tempo up to its end -/
theorem grid_reach {minB maxB res : F32} (hr : ¬ res ≤ 0) {n k : ℕ} (hk : gridBpm minB res k ≤ maxB)
    (hn : ¬ gridBpm minB res n ≤ maxB) : k < n := by
  by_contra hc
  apply hn
  obtain ⟨j, rfl⟩ := Nat.exists_eq_add_of_le (Nat.le_of_not_lt hc)
  rw [grid_step] at hk
  refine F32.le_trans (grid_ge hr (F32.le_refl ?_) ⟨_, hk⟩) hk
  intro e
  rw [e, grid_nan] at hk
  simp at hk

theorem clicks_sorted (f P m : ℕ) : sortNat (clicks f P m) = clicks f P m := by
  refine rsort_eq_self ?_
  unfold clicks
  rw [List.pairwise_map]
  refine List.pairwise_lt_range.imp ?_
  intro a b h
  rw [decide_eq_true_eq]
  have := Nat.mul_le_mul_right P (Nat.le_of_lt h)
  omega

theorem clicks_last (f P m : ℕ) : (clicks f P (m + 1)).getLast? = some (f + m * P) := by
  unfold clicks
  rw [List.range_succ, List.map_append]
  simp

theorem mem_clicks {f P m o : ℕ} : o ∈ clicks f P m ↔ ∃ i < m, o = f + i * P := by
  unfold clicks
  simp [eq_comm]

/-- what a successful search of a metronome returns -/
theorem comb_search {fuel f P m sr : ℕ} (hm : 1 ≤ m) {minB maxB res : F32} {cands : List Cand}
    (h : estComb fuel (clicks f P (m + 1)) sr minB maxB res = .ok cands) :
    ¬ res ≤ 0 ∧ ∃ (n : ℕ) (sc : ℕ → F32), cands = combFinish ((List.range n).map (fun k => (gridBpm minB res k, sc k))) ∧
      (∀ k < n, score (clicks f P (m + 1)) sr (gridBpm minB res k) (tolOf (gridBpm minB res k)) = .ok (sc k)) ∧
      (∀ k < n, 0 < gridBpm minB res k ∧ gridBpm minB res k ≤ maxB + 1e-10) ∧
      ∀ bpm, Scanned minB maxB res bpm → ∃ k < n, gridBpm minB res k = bpm := by
  unfold estComb at h
  split_ifs at h with h1 h2 h3 h4 h5
  · exfalso
    unfold clicks at h5
    rw [List.length_map, List.length_range] at h5
    omega
  rw [clicks_sorted] at h
  obtain ⟨cs, hcs, h⟩ := R.bind_eq_ok.1 h
  cases h
  obtain ⟨n, sc, rfl, a1, a2, a3⟩ := combLoop_eq fuel hcs
  refine ⟨h4, n, sc, rfl, a1, fun k hk => ⟨?_, a2 k hk⟩, ?_⟩
  · have hk' := a2 k hk
    have hn : minB ≠ nan := by
      rintro rfl
      rw [grid_nan] at hk'
      simp at hk'
    have h0 : 0 < minB := lt_of_not_le zero_ne_nan hn fun e => h3 (.inl e)
    exact lt_of_lt_of_le h0 (grid_ge h4 (F32.le_refl hn) ⟨_, hk'⟩)
  · rintro bpm ⟨k, rfl, hb⟩
    exact ⟨k, grid_reach h4 hb a3, rfl⟩

/-- a full score: it stays 1, and the first one leads -/
theorem finish_full {cs : List (F32 × F32)} (hcs : ∀ c ∈ cs, 0 ≤ c.2 ∧ c.2 ≤ 1) {b : F32} (hb : (b, 1) ∈ cs) :
    ⟨b, 1⟩ ∈ combFinish cs ∧ ∃ c l1 l2, (combFinish cs).head? = some c ∧ cs = l1 ++ (c.bpm, 1) :: l2 ∧ ∀ x ∈ l1, x.2 < 1 := by
  have hms := maxScore_spec cs 0 zero_ne_nan (fun c hc => ne_nan_right (hcs c hc).1)
  change 0 ≤ maxScore cs ∧ (∀ c ∈ cs, c.2 ≤ maxScore cs) ∧ (maxScore cs = 0 ∨ ∃ c ∈ cs, c.2 = maxScore cs) at hms
  have hm : maxScore cs = 1 := by
    refine F32.le_antisymm ?_ (hms.2.1 _ hb)
    rcases hms.2.2 with e | ⟨c, hc, e⟩
    · rw [e]; exact zero_le_one
    · rw [← e]; exact (hcs c hc).2
  have hdiv : ∀ c ∈ cs, c.2 / 1 = c.2 := by
    intro c hc
    obtain ⟨v, hv, e⟩ := isFinite_iff.1 (isFinite_of_unit (hcs c hc).1 (hcs c hc).2)
    rw [e, one_def, div_fin one_ne_zero, div_one, rnd_val hv]
  have hmap : cs.map (fun c => Cand.mk c.1 (c.2 / maxScore cs)) = cs.map (fun c => Cand.mk c.1 c.2) :=
    List.map_congr_left fun c hc => by rw [hm, hdiv c hc]
  have hfin : combFinish cs = (sortDesc Cand.conf (cs.map (fun c => Cand.mk c.1 c.2))).filter (fun c => decide (0.1 ≤ c.conf)) := by
    unfold combFinish
    dsimp only
    rw [if_pos (by rw [hm]; decide +kernel), hmap]
  have hnn : ∀ c ∈ cs.map (fun c => Cand.mk c.1 c.2), c.conf ≠ nan := by
    intro c hc
    obtain ⟨x, hx, rfl⟩ := List.mem_map.1 hc
    exact ne_nan_left (hcs x hx).2
  have hmem : Cand.mk b 1 ∈ cs.map (fun c => Cand.mk c.1 c.2) := List.mem_map.2 ⟨_, hb, rfl⟩
  rw [hfin]
  refine ⟨List.mem_filter.2 ⟨mem_sortDesc.2 hmem, decide_eq_true (by decide +kernel : (0.1 : F32) ≤ 1)⟩, ?_⟩
  rcases hs : sortDesc Cand.conf (cs.map (fun c => Cand.mk c.1 c.2)) with _ | ⟨a, ts⟩
  · have := mem_sortDesc (key := Cand.conf).2 hmem
    rw [hs] at this
    simp at this
  obtain ⟨l1, l2, hdec, hl1, hl2⟩ := sortDesc_first hnn (by rw [hs]; rfl : List.head? _ = some a)
  have ha : a ∈ cs.map (fun c => Cand.mk c.1 c.2) := by rw [hdec]; simp
  have ha1 : a.conf = 1 := by
    obtain ⟨x, hx, rfl⟩ := List.mem_map.1 ha
    refine F32.le_antisymm (hcs x hx).2 ?_
    rw [hdec, List.mem_append, List.mem_cons] at hmem
    rcases hmem with h | h | h
    · exact F32.le_of_lt (hl1 _ h)
    · rw [← h]; exact F32.le_refl one_ne_nan
    · exact hl2 _ h
  obtain ⟨k1, k2, rfl, e1, e2⟩ := List.map_eq_append_iff.1 hdec
  obtain ⟨x, k3, rfl, e3, e4⟩ := List.map_eq_cons_iff.1 e2
  refine ⟨a, k1, k3, ?_, ?_, ?_⟩
  · have h1 : decide ((0.1 : F32) ≤ a.conf) = true := by rw [ha1]; decide +kernel
    rw [hs, List.filter_cons, if_pos h1]
    rfl
  · rw [← ha1, ← e3]
  · intro y hy
    rw [← ha1]
    exact hl1 ⟨y.1, y.2⟩ (by rw [← e1]; exact List.mem_map.2 ⟨y, hy, rfl⟩)

/-! ### The property -/

/-- **C101 (partial).**  A metronome whose first click is at sample 0: if its tempo is one of the scanned tempos it is a
candidate with full confidence.  Missing: other starting points (`C101_violated_phase`), and that it comes first
(`C101_violated_slower`). -/
theorem C101_on_beat_partial (fuel P m sr : ℕ) (hP : 0 < P) (hm : 1 ≤ m) (hfit : m * P + P ≤ 2 ^ 24) (minB maxB res bpm : F32)
    (hs : Scanned minB maxB res bpm) (hb : BeatLength sr bpm P) (cands : List Cand)
    (h : estComb fuel (clicks 0 P (m + 1)) sr minB maxB res = .ok cands) : ⟨bpm, 1⟩ ∈ cands := by
  obtain ⟨hr, n, sc, rfl, h1, h2, h3⟩ := comb_search hm h
  obtain ⟨k, hk, rfl⟩ := h3 bpm hs
  have ht := tolOf_range (h2 k hk).1
  have hfull := score_full hb hP (by rw [clicks_last, Nat.zero_add]) hfit (fun o ho => by
      obtain ⟨i, hi, rfl⟩ := mem_clicks.1 ho
      have := Nat.mul_le_mul_right P (by omega : i ≤ m)
      omega) (fun k hk => mem_clicks.2 ⟨k, by omega, by omega⟩) ht.1 ht.2
  have hsk : sc k = 1 := by
    have := h1 k hk
    rw [hfull] at this
    exact (Except.ok.inj this).symm
  refine (finish_full (fun c hc => ?_) (List.mem_map.2 ⟨k, List.mem_range.2 hk, by rw [hsk]⟩)).1
  obtain ⟨j, hj, rfl⟩ := List.mem_map.1 hc
  exact score_unit (h1 j (List.mem_range.1 hj))

/-- **C101 violated (slower tempos come first).**  `d` times the beat, with `d` a divisor of the number of beat intervals:
the tempo `d` times slower has full confidence too, and whichever tempo comes first is at most that slow one. -/
theorem C101_violated_slower (fuel P d j sr : ℕ) (hP : 0 < P) (hd : 0 < d) (hj : 0 < j) (hfit : d * j * P + d * P ≤ 2 ^ 24)
    (minB maxB res bpm slow : F32) (hs : Scanned minB maxB res bpm) (hb : BeatLength sr bpm P)
    (hs' : Scanned minB maxB res slow) (hb' : BeatLength sr slow (d * P)) (hlt : slow < bpm) (cands : List Cand)
    (h : estComb fuel (clicks 0 P (d * j + 1)) sr minB maxB res = .ok cands) :
    ⟨bpm, 1⟩ ∈ cands ∧ ⟨slow, 1⟩ ∈ cands ∧ ∃ c, cands.head? = some c ∧ c.bpm ≤ slow ∧ c.bpm < bpm := by
  have hm : 1 ≤ d * j := Nat.mul_pos hd hj
  have hPd : P ≤ d * P := Nat.le_mul_of_pos_left P hd
  refine ⟨C101_on_beat_partial fuel P (d * j) sr hP hm (by omega) minB maxB res bpm hs hb cands h, ?_⟩
  obtain ⟨hr, n, sc, rfl, h1, h2, h3⟩ := comb_search hm h
  obtain ⟨k, hk, rfl⟩ := h3 slow hs'
  have ht := tolOf_range (h2 k hk).1
  have hjd : ∀ i, i * (d * P) = d * i * P := fun i => by rw [← Nat.mul_assoc, Nat.mul_comm i d]
  have hfull := score_full (onsets := clicks 0 P (d * j + 1)) (n := j) hb' (Nat.mul_pos hd hP) (by rw [clicks_last, Nat.zero_add, hjd])
    (by rw [hjd]; omega) (fun o ho => by
      obtain ⟨i, hi, rfl⟩ := mem_clicks.1 ho
      rw [Nat.zero_add]
      exact Nat.le_trans (Nat.mul_le_mul_right P (Nat.lt_succ_iff.1 hi)) (Nat.le_trans (Nat.le_add_right ..) hfit))
    (fun i hi => mem_clicks.2 ⟨d * i, Nat.lt_succ_of_le (Nat.mul_le_mul_left d hi), by rw [hjd, Nat.zero_add]⟩) ht.1 ht.2
  have hsk : sc k = 1 := by
    have := h1 k hk
    rw [hfull] at this
    exact (Except.ok.inj this).symm
  have hunit : ∀ c ∈ (List.range n).map (fun k => (gridBpm minB res k, sc k)), 0 ≤ c.2 ∧ c.2 ≤ 1 := by
    intro c hc
    obtain ⟨i, hi, rfl⟩ := List.mem_map.1 hc
    exact score_unit (h1 i (List.mem_range.1 hi))
  obtain ⟨f1, c, l1, l2, f2, f3, f4⟩ := finish_full hunit
    (List.mem_map.2 ⟨k, List.mem_range.2 hk, by rw [hsk]⟩ : (gridBpm minB res k, (1 : F32)) ∈ _)
  refine ⟨f1, c, f2, ?_⟩
  have hle : c.bpm ≤ gridBpm minB res k := by
    have hc : ((List.range n).map (fun k => (gridBpm minB res k, sc k)))[l1.length]? = some (c.bpm, 1) := by
      rw [f3, List.getElem?_append_right (Nat.le_refl _)]; simp
    have hl : l1.length < n := by
      have := congrArg List.length f3
      simp at this
      omega
    rw [List.getElem?_map, List.getElem?_range hl] at hc
    have hcb : gridBpm minB res l1.length = c.bpm := by
      simp only [Option.map_some, Option.some.injEq, Prod.mk.injEq] at hc
      exact hc.1
    have hlk : l1.length ≤ k := by
      by_contra hgt
      have hk1 : ((List.range n).map (fun k => (gridBpm minB res k, sc k)))[k]? = some (gridBpm minB res k, 1) := by
        rw [List.getElem?_map, List.getElem?_range hk, Option.map_some, hsk]
      rw [f3, List.getElem?_append_left (by omega)] at hk1
      have := f4 _ (List.mem_of_getElem? hk1)
      exact not_le_of_lt this (F32.le_refl one_ne_nan)
    rw [← hcb]
    obtain ⟨i, rfl⟩ := Nat.exists_eq_add_of_le hlk
    rw [grid_step]
    refine grid_ge hr (F32.le_refl ?_) ⟨maxB + 1e-10, ?_⟩
    · exact ne_nan_left (h2 _ hl).2
    · rw [← grid_step]; exact (h2 _ hk).2
  exact ⟨hle, lt_of_le_of_lt hle hlt⟩

/-- **C101 violated (starting point).**  A metronome whose first click is at least a fifth of a beat away from the start of
the track and from the next beat: its own tempo has score 0 and is never a candidate. -/
theorem C101_violated_phase (fuel f P m sr : ℕ) (hf : P < 5 * f) (hf' : 5 * f < 4 * P) (hm : 1 ≤ m)
    (hfit : f + m * P + P < 2 ^ 24) (minB maxB res bpm : F32) (hb : BeatLength sr bpm P) (cands : List Cand)
    (h : estComb fuel (clicks f P (m + 1)) sr minB maxB res = .ok cands) : ∀ c ∈ cands, c.bpm ≠ bpm := by
  obtain ⟨hr, n, sc, rfl, h1, h2, h3⟩ := comb_search hm h
  intro c hc e
  have hunit : ∀ c ∈ (List.range n).map (fun k => (gridBpm minB res k, sc k)), 0 ≤ c.2 ∧ c.2 ≤ 1 := by
    intro c hc
    obtain ⟨i, hi, rfl⟩ := List.mem_map.1 hc
    exact score_unit (h1 i (List.mem_range.1 hi))
  obtain ⟨⟨x, hx, e1, e2⟩, h01, -⟩ := (combFinish_spec hunit).1 c hc
  obtain ⟨k, hk, rfl⟩ := List.mem_map.1 hx
  have hk' := List.mem_range.1 hk
  dsimp only at e1 e2
  rw [e] at e1
  have ht := tolOf_range (h2 k hk').1
  have hnone := score_none (bpm := gridBpm minB res k) (by rw [← e1]; exact hb) (by omega : 0 < P) (clicks_last f P m) hfit (fun o ho => by
      obtain ⟨i, hi, rfl⟩ := mem_clicks.1 ho
      have := Nat.mul_le_mul_right P (by omega : i ≤ m)
      omega) (fun o ho q => by
      obtain ⟨i, hi, rfl⟩ := mem_clicks.1 ho
      rcases Nat.lt_or_ge i q with hlt | hge
      · have := Nat.mul_le_mul_right P (by omega : i + 1 ≤ q)
        rw [Nat.add_mul] at this
        omega
      · have := Nat.mul_le_mul_right P hge
        omega) ht.1 ht.2
  have hsk : sc k = 0 := by
    have := h1 k hk'
    rw [hnone] at this
    exact (Except.ok.inj this).symm
  rw [hsk] at e2
  have hms := maxScore_spec _ 0 zero_ne_nan (fun c hc => ne_nan_right (hunit c hc).1)
  change 0 ≤ maxScore _ ∧ _ ∧ (maxScore _ = 0 ∨ ∃ c ∈ (_ : List (F32 × F32)), c.2 = maxScore _) at hms
  have hzero : ∀ y : F32, 0 ≤ y → y ≤ 1 → ¬ 0.1 ≤ 0 / y := by
    intro y h0 h1
    obtain ⟨v, hv, rfl⟩ := isFinite_iff.1 (isFinite_of_unit h0 h1)
    by_cases hv0 : v = 0
    · subst hv0; rw [← zero_def]; decide +kernel
    · rw [zero_def, div_fin hv0, zero_div, rnd_zero]; decide +kernel
  rw [e2] at h01
  refine hzero _ hms.1 ?_ h01
  rcases hms.2.2 with h | ⟨y, hy, h⟩
  · rw [h]; exact zero_le_one
  · rw [← h]; exact (hunit y hy).2

-- at 44.1 kHz: 120 BPM is a click every 22050 samples, 60 BPM and 40 BPM are two and three times as long
example : BeatLength 44100 120 22050 ∧ BeatLength 44100 60 (2 * 22050) ∧ BeatLength 44100 40 (3 * 22050) ∧
    Scanned 40 240 1 120 ∧ Scanned 40 240 1 60 ∧ Scanned 40 240 1 40 := by
  refine ⟨by unfold BeatLength; decide +kernel, by unfold BeatLength; decide +kernel, by unfold BeatLength; decide +kernel,
    ⟨80, by decide +kernel, by decide +kernel⟩, ⟨20, by decide +kernel, by decide +kernel⟩, ⟨0, rfl, by decide +kernel⟩⟩

-- five clicks at 120 BPM: 60 BPM is a full match too and comes first
example : (estComb 20 (clicks 0 22050 5) 44100 60 240 60).map (fun l => l.map (fun c => (c.bpm, c.conf == 1))) =
    .ok [(60, true), (120, true), (240, false), (180, false)] := by decide +kernel

-- the same clicks half a beat later: 120 BPM is not among the candidates
example : 22050 < 5 * 11025 ∧ 5 * 11025 < 4 * 22050 ∧ 11025 + 4 * 22050 + 22050 < 2 ^ 24 ∧
    (estComb 20 (clicks 11025 22050 5) 44100 60 240 60).map (fun l => l.map (fun c => (c.bpm, c.conf == 1))) =
      .ok [(240, true)] := by decide +kernel

end Verif.Props
