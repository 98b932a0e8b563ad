/-
Combined novelty (C26).
-/
import Verif.Props.Novelty

namespace Verif.Props
open Verif F32 Novelty

/-! ### Combined novelty -/

/-- a weight that cannot overflow: NaN, or at most `2^80` (negative weights count as 0) -/
def Weight (w : F32) : Prop := w = nan ∨ w ≤ rnd (pow2 80)

theorem g80w : ∃ h, rnd (pow2 80) = fin (pow2 80) h := ⟨by decide +kernel, by decide +kernel⟩

theorem weight_range {w : F32} (h : Weight w) : ∃ v hv, F32.max w 0 = fin v hv ∧ 0 ≤ v ∧ v ≤ pow2 80 := by
  obtain ⟨g, e⟩ := g80w
  have h0 : 0 ≤ F32.max w 0 := le_max_right zero_ne_nan
  have h1 : F32.max w 0 ≤ fin (pow2 80) g := by
    rw [← e]
    rcases h with rfl | h
    · decide +kernel
    · exact F32.max_le h (by decide +kernel)
  generalize F32.max w 0 = y at *
  rw [zero_def] at h0
  exact between_cases h0 h1

theorem mix_range {ws we wh s e h : F32} (h1 : Weight ws) (h2 : Weight we) (h3 : Weight wh) (hs : InUnit s) (he : InUnit e)
    (hh : InUnit h) : 0 ≤ mix ws we wh s e h ∧ (mix ws we wh s e h).isFinite = true := by
  unfold mix
  dsimp only
  obtain ⟨a, ha, ea, a0, a1⟩ := weight_range h1
  obtain ⟨b, hb, eb, b0, b1⟩ := weight_range h2
  obtain ⟨c, hc, ec, c0, c1⟩ := weight_range h3
  have toFin : ∀ x : F32, InUnit x → ∃ v hv, x = fin v hv ∧ 0 ≤ v ∧ v ≤ 1 := by
    rintro x ⟨x0, x1⟩
    rw [zero_def] at x0; rw [one_def] at x1
    exact between_cases x0 x1
  obtain ⟨s, gs, rfl, s0, s1⟩ := toFin s hs
  obtain ⟨e, ge, rfl, e0, e1⟩ := toFin e he
  obtain ⟨h, gh, rfl, h0, h1⟩ := toFin h hh
  rw [ea, eb, ec]
  have g : OnGrid (pow2 80) ∧ |pow2 80| < pow2 128 := by decide +kernel
  have g1 : OnGrid (pow2 81) ∧ |pow2 81| < pow2 128 := by decide +kernel
  have g2 : OnGrid (pow2 82) ∧ |pow2 82| < pow2 128 := by decide +kernel
  have p1 : pow2 80 + pow2 80 ≤ pow2 81 := by decide +kernel
  have p2 : pow2 81 + pow2 80 ≤ pow2 82 := by decide +kernel
  have prod : ∀ x y : ℚ, 0 ≤ x → x ≤ 1 → 0 ≤ y → y ≤ pow2 80 → x * y ≤ pow2 80 := by
    intro x y x0 x1 y0 y1; nlinarith
  obtain ⟨q1, r1, l1, u1⟩ := rnd_between (x := s * a) grid_zero g (by positivity) (prod _ _ s0 s1 a0 a1)
  obtain ⟨q2, r2, l2, u2⟩ := rnd_between (x := e * b) grid_zero g (by positivity) (prod _ _ e0 e1 b0 b1)
  obtain ⟨q3, r3, l3, u3⟩ := rnd_between (x := h * c) grid_zero g (by positivity) (prod _ _ h0 h1 c0 c1)
  rw [mul_fin, mul_fin, mul_fin, r1, r2, r3, add_fin]
  obtain ⟨q4, r4, l4, u4⟩ := rnd_between (x := rndQ (s * a) + rndQ (e * b)) grid_zero g1 (by linarith) (by linarith)
  rw [r4, add_fin]
  obtain ⟨q5, r5, l5, u5⟩ := rnd_between (x := rndQ (rndQ (s * a) + rndQ (e * b)) + rndQ (h * c)) grid_zero g2
    (by linarith) (by linarith)
  rw [r5]
  obtain ⟨q6, r6, l6, u6⟩ := rnd_between (x := a + b) grid_zero g1 (by linarith) (by linarith)
  rw [add_fin, r6, add_fin]
  obtain ⟨q7, r7, l7, u7⟩ := rnd_between (x := rndQ (a + b) + c) grid_zero g2 (by linarith) (by linarith)
  rw [r7]
  generalize rndQ (rndQ (rndQ (s * a) + rndQ (e * b)) + rndQ (h * c)) = num at *
  generalize rndQ (rndQ (a + b) + c) = den at *
  obtain ⟨ep, gep, eep, ep0⟩ : ∃ v hv, EPS = fin v hv ∧ pow2 (-40) ≤ v :=
    ⟨EPS.val, by decide +kernel, by decide +kernel, by decide +kernel⟩
  obtain ⟨d, gd, ed, d0⟩ : ∃ v hv, F32.max (fin den q7) EPS = fin v hv ∧ pow2 (-40) ≤ v := by
    rcases max_eq_left_or_right (fin den q7) EPS with hm | hm
    · have := le_max_right (a := fin den q7) (b := EPS) (by decide +kernel)
      rw [hm, eep, fin_le_fin] at this
      exact ⟨den, q7, hm, ep0.trans this⟩
    · exact ⟨ep, gep, by rw [hm, eep], ep0⟩
  have dpos : 0 < d := _root_.lt_of_lt_of_le (pow2_pos _) d0
  rw [ed, div_fin dpos.ne']
  have gmax : OnGrid (pow2 127) ∧ |pow2 127| < pow2 128 := by decide +kernel
  have hq : num / d ≤ pow2 127 := by
    rw [div_le_iff₀ dpos]
    have : pow2 82 ≤ pow2 127 * pow2 (-40) := by decide +kernel
    have := _root_.mul_le_mul_of_nonneg_left d0 (pow2_pos 127).le
    linarith
  obtain ⟨q8, r8, l8, u8⟩ := rnd_between (x := num / d) grid_zero gmax (by positivity) hq
  exact ⟨rnd_nonneg (by positivity), by rw [r8]; rfl⟩

theorem around_mem {x : List F32} {half i : ℕ} {y : F32} (h : y ∈ around x half i) : y ∈ x :=
  List.mem_of_mem_take (List.mem_of_mem_drop h)

theorem localMean_range {x : List F32} (h : ∀ y ∈ x, InUnit y) (half i : ℕ) (hi : i < x.length) (hl : x.length ≤ 2 ^ 64) :
    0 ≤ localMean x half i ∧ (localMean x half i).isFinite = true := by
  have hs : ∀ y ∈ around x half i, 0 ≤ y ∧ y ≤ rnd (pow2 101) := fun y hy =>
    ⟨(h y (around_mem hy)).1, F32.le_trans (h y (around_mem hy)).2 (by decide +kernel)⟩
  have s0 := F32.sum_nonneg fun y hy => (hs y hy).1
  have s1 := sum_sat_aux hs 0 (by decide +kernel) (by decide +kernel)
  have hmin : i - half < Nat.min (i + half + 1) x.length := Nat.lt_min.2 ⟨by omega, by omega⟩
  have hmin' : Nat.min (i + half + 1) x.length ≤ x.length := Nat.min_le_right _ _
  have n1 := one_le_ofNat (n := Nat.min (i + half + 1) x.length - (i - half)) (by omega)
  have nf := ofNat_finite (n := Nat.min (i + half + 1) x.length - (i - half))
    (le_trans (by omega) (by norm_num : (2 ^ 64 : ℕ) ≤ 2 ^ 127))
  unfold localMean F32.sum
  unfold F32.sum at s0
  generalize (around x half i).foldl (· + ·) 0 = s at *
  generalize F32.ofNat (Nat.min (i + half + 1) x.length - (i - half)) = n at *
  obtain ⟨m, hm, rfl⟩ := isFinite_iff.1 nf
  obtain ⟨g, eg⟩ : ∃ h, rnd (pow2 126) = fin (pow2 126) h := ⟨by decide +kernel, by decide +kernel⟩
  rw [eg] at s1; rw [zero_def] at s0; rw [one_def, fin_le_fin] at n1
  obtain ⟨v, hv, rfl, v0, v1⟩ := between_cases s0 s1
  rw [div_fin (by linarith)]
  obtain ⟨q, r, l, u⟩ := rnd_between (x := v / m) grid_zero g (by positivity) (by
    rw [div_le_iff₀ (by linarith)]; nlinarith [pow2_pos 126])
  exact ⟨rnd_nonneg (by positivity), by rw [r]; rfl⟩

theorem condition_range {c : List F32} (h : ∀ x ∈ c, InUnit x) (hl : c.length ≤ 2 ^ 64) (lw sw : ℕ) :
    (condition lw sw c).length = c.length ∧ ∀ x ∈ condition lw sw c, InUnit x := by
  have h1 : ∀ c : List F32, (∀ x ∈ c, InUnit x) → c.length ≤ 2 ^ 64 → ∀ w, (meanSubtract c w).length = c.length ∧
      ∀ x ∈ meanSubtract c w, InUnit x := by
    intro c h hl w
    unfold meanSubtract
    split_ifs with hc
    · exact ⟨rfl, h⟩
    · refine ⟨by simp, fun x hx => ?_⟩
      obtain ⟨i, hi, rfl⟩ := List.mem_map.1 hx
      rw [List.mem_range] at hi
      refine ⟨le_max_right zero_ne_nan, ?_⟩
      obtain ⟨m0, mf⟩ := localMean_range h (w / 2) i hi hl
      obtain ⟨x0, x1⟩ := h _ (Novelty.mem_getD hi)
      apply F32.max_le _ (by decide +kernel)
      obtain ⟨m, hm, em⟩ := isFinite_iff.1 mf
      rw [em] at m0 ⊢
      rw [zero_def] at x0 m0; rw [one_def] at x1
      obtain ⟨v, hv, ev, v0, v1⟩ := between_cases x0 x1
      rw [fin_le_fin] at m0
      rw [ev, sub_fin, one_def]
      exact rnd_le_fin (by linarith)
  have h2 : ∀ c : List F32, (∀ x ∈ c, InUnit x) → c.length ≤ 2 ^ 64 → ∀ w, (movingAverage c w).length = c.length ∧
      ∀ x ∈ movingAverage c w, 0 ≤ x ∧ x.isFinite = true := by
    intro c h hl w
    unfold movingAverage
    split_ifs with hc
    · exact ⟨rfl, fun x hx => ⟨(h x hx).1, isFinite_of_between (lo := 0) (hi := 1) (by decide +kernel) (by decide +kernel)
        (h x hx).1 (h x hx).2⟩⟩
    · refine ⟨by simp, fun x hx => ?_⟩
      obtain ⟨i, hi, rfl⟩ := List.mem_map.1 hx
      rw [List.mem_range] at hi
      exact localMean_range h (w / 2) i hi hl
  unfold condition
  dsimp only
  have a1 : (if 1 < lw then meanSubtract c lw else c).length = c.length ∧
      ∀ x ∈ (if 1 < lw then meanSubtract c lw else c), InUnit x := by
    split_ifs
    · exact h1 c h hl lw
    · exact ⟨rfl, h⟩
  generalize (if 1 < lw then meanSubtract c lw else c) = d at *
  have a2 : (if 1 < sw then movingAverage d sw else d).length = c.length ∧
      ∀ x ∈ (if 1 < sw then movingAverage d sw else d), 0 ≤ x ∧ x.isFinite = true := by
    split_ifs
    · have := h2 d a1.2 (by rw [a1.1]; exact hl) sw
      exact ⟨this.1.trans a1.1, this.2⟩
    · exact ⟨a1.1, fun x hx => ⟨(a1.2 x hx).1, isFinite_of_between (lo := 0) (hi := 1) (by decide +kernel)
        (by decide +kernel) (a1.2 x hx).1 (a1.2 x hx).2⟩⟩
  generalize (if 1 < sw then movingAverage d sw else d) = e at *
  have := peakNorm_spec (c := e) (fun x hx => (a2.2 x hx).1)
  exact ⟨this.1.trans a2.1, this.2.2 (fun x hx => (a2.2 x hx).2)⟩

/-- **C26 (combined)**: three curves with values in `[0,1]` combine to a curve of their common length with values in `[0,1]`,
for every weight up to `2^80` (negative and NaN weights included) and all window lengths. -/
theorem C26_combined_partial (s e h : List F32) (ws we wh : F32) (lw sw : ℕ) (hs : ∀ x ∈ s, InUnit x) (he : ∀ x ∈ e, InUnit x)
    (hh : ∀ x ∈ h, InUnit x) (h1 : Weight ws) (h2 : Weight we) (h3 : Weight wh) (hl : s.length ≤ 2 ^ 64) :
    (combined s e h ws we wh lw sw).length = min (min s.length e.length) h.length ∧
    ∀ x ∈ combined s e h ws we wh lw sw, InUnit x := by
  unfold combined
  dsimp only
  have en : Nat.min (Nat.min s.length e.length) h.length = Min.min (Min.min s.length e.length) h.length := rfl
  rw [en]
  split_ifs with h0
  · exact ⟨by rw [h0]; rfl, by simp⟩
  · have hm : ∀ x ∈ (List.range (min (min s.length e.length) h.length)).map (fun i =>
        mix ws we wh (Novelty.at' s i) (Novelty.at' e i) (Novelty.at' h i)), 0 ≤ x ∧ x.isFinite = true := by
      intro x hx
      obtain ⟨i, hi, rfl⟩ := List.mem_map.1 hx
      rw [List.mem_range] at hi
      exact mix_range h1 h2 h3 (hs _ (Novelty.mem_getD (by omega))) (he _ (Novelty.mem_getD (by omega)))
        (hh _ (Novelty.mem_getD (by omega)))
    obtain ⟨l, -, r⟩ := peakNorm_spec (fun x hx => (hm x hx).1)
    have hc := condition_range (r fun x hx => (hm x hx).2) (by rw [l]; simp; omega) lw sw
    exact ⟨by rw [hc.1, l]; simp, hc.2⟩

/-- non-vacuity: the default weights and windows -/
example : Weight 0.5 ∧ Weight 0.3 ∧ Weight 0.2 ∧ combined [0, 1, 0] [0, 1, 0.5] [0, 1, 0] 0.5 0.3 0.2 1 1 =
    .cons 0 [1, (0.5 * 0.3) / (0.5 + 0.3 + 0.2)] := by
  unfold Weight; decide +kernel

end Verif.Props
