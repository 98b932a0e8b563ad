import Verif.Model.KeyDet
import Verif.F32.Bounds

/-! Property theorems for claim C43: key clarity. -/

namespace Verif.Props

open Verif Verif.Keys Verif.KeyDet F32

theorem minByP_spec : ∀ (l : List F32) (b : F32), b ≠ nan → (∀ x ∈ l, x ≠ nan) →
    ∃ m, minByP b l = .ok m ∧ (m = b ∨ m ∈ l) ∧ m ≤ b ∧ ∀ x ∈ l, m ≤ x
  | [], b, hb, _ => ⟨b, rfl, Or.inl rfl, F32.le_refl hb, by simp⟩
  | x :: l, b, hb, h => by
    have hx : x ≠ nan := h x (by simp)
    have hl : ∀ y ∈ l, y ≠ nan := fun y hy => h y (by simp [hy])
    rw [minByP, isNaN_false_iff.2 hb, isNaN_false_iff.2 hx]
    simp only [Bool.or_self, Bool.false_eq_true, if_false]
    by_cases hc : x < b
    · rw [if_pos hc]
      obtain ⟨m, e, hm, h1, h2⟩ := minByP_spec l x hx hl
      refine ⟨m, e, ?_, F32.le_trans h1 (F32.le_of_lt hc), ?_⟩
      · rcases hm with rfl | hm
        · right; simp
        · right; simp [hm]
      · intro y hy
        rcases List.mem_cons.1 hy with rfl | hy
        · exact h1
        · exact h2 y hy
    · rw [if_neg hc]
      obtain ⟨m, e, hm, h1, h2⟩ := minByP_spec l b hb hl
      refine ⟨m, e, ?_, h1, ?_⟩
      · rcases hm with rfl | hm
        · left; rfl
        · right; simp [hm]
      · intro y hy
        rcases List.mem_cons.1 hy with rfl | hy
        · exact F32.le_trans h1 (F32.le_of_not_lt hb hx hc)
        · exact h2 y hy

theorem maxByP_spec : ∀ (l : List F32) (b : F32), b ≠ nan → (∀ x ∈ l, x ≠ nan) →
    ∃ m, maxByP b l = .ok m ∧ (m = b ∨ m ∈ l) ∧ b ≤ m ∧ ∀ x ∈ l, x ≤ m
  | [], b, hb, _ => ⟨b, rfl, Or.inl rfl, F32.le_refl hb, by simp⟩
  | x :: l, b, hb, h => by
    have hx : x ≠ nan := h x (by simp)
    have hl : ∀ y ∈ l, y ≠ nan := fun y hy => h y (by simp [hy])
    rw [maxByP, isNaN_false_iff.2 hb, isNaN_false_iff.2 hx]
    simp only [Bool.or_self, Bool.false_eq_true, if_false]
    by_cases hc : x < b
    · rw [if_pos hc]
      obtain ⟨m, e, hm, h1, h2⟩ := maxByP_spec l b hb hl
      refine ⟨m, e, ?_, h1, ?_⟩
      · rcases hm with rfl | hm
        · left; rfl
        · right; simp [hm]
      · intro y hy
        rcases List.mem_cons.1 hy with rfl | hy
        · exact F32.le_trans (F32.le_of_lt hc) h1
        · exact h2 y hy
    · rw [if_neg hc]
      obtain ⟨m, e, hm, h1, h2⟩ := maxByP_spec l x hx hl
      refine ⟨m, e, ?_, F32.le_trans (F32.le_of_not_lt hb hx hc) h1, ?_⟩
      · rcases hm with rfl | hm
        · right; simp
        · right; simp [hm]
      · intro y hy
        rcases List.mem_cons.1 hy with rfl | hy
        · exact h1
        · exact h2 y hy

/-- the lowest and the highest score of a list, and the clarity in their terms -/
theorem clarity_eq {scores : List (Key × F32)} (h2 : 2 ≤ scores.length) (hn : ∀ p ∈ scores, p.2 ≠ nan) :
    ∃ best lo hi, (scores.map Prod.snd).head? = some best ∧ lo ∈ scores.map Prod.snd ∧ hi ∈ scores.map Prod.snd ∧
      (∀ p ∈ scores, lo ≤ p.2 ∧ p.2 ≤ hi) ∧
      keyClarity scores = .ok (if 1e-10 < hi - lo then
        F32.clamp ((best - F32.sum (scores.map Prod.snd) / F32.ofNat scores.length) / (hi - lo)) 0 1 else 0) := by
  match scores, h2 with
  | a :: b :: l, _ =>
    have ha : a.2 ≠ nan := hn a (by simp)
    have hl : ∀ x ∈ b.2 :: l.map Prod.snd, x ≠ nan := by
      intro x hx
      rcases List.mem_cons.1 hx with rfl | hx
      · exact hn b (by simp)
      · obtain ⟨p, hp, rfl⟩ := List.mem_map.1 hx
        exact hn p (by simp [hp])
    obtain ⟨lo, e1, m1, l1, l2⟩ := minByP_spec _ _ ha hl
    obtain ⟨hi, e2, m2, u1, u2⟩ := maxByP_spec _ _ ha hl
    refine ⟨a.2, lo, hi, rfl, ?_, ?_, ?_, ?_⟩
    · rcases m1 with rfl | h
      · simp
      · simp only [List.map_cons]; exact List.mem_cons_of_mem _ h
    · rcases m2 with rfl | h
      · simp
      · simp only [List.map_cons]; exact List.mem_cons_of_mem _ h
    · intro p hp
      rcases List.mem_cons.1 hp with rfl | hp
      · exact ⟨l1, u1⟩
      · have : p.2 ∈ b.2 :: l.map Prod.snd := by
          rcases List.mem_cons.1 hp with rfl | hp
          · simp
          · exact List.mem_cons_of_mem _ (List.mem_map_of_mem hp)
        exact ⟨l2 _ this, u2 _ this⟩
    · unfold keyClarity
      simp only [List.map_cons]
      rw [e1, e2]
      simp only [Bind.bind, Except.bind, List.length_cons, List.length_map]
      split_ifs <;> rfl

theorem sum_bounded : ∀ (l : List F32) (a : F32), -rnd (pow2 126) ≤ a → a ≤ rnd (pow2 126) →
    (∀ x ∈ l, -rnd (pow2 100) ≤ x ∧ x ≤ rnd (pow2 100)) →
    -rnd (pow2 126) ≤ l.foldl (· + ·) a ∧ l.foldl (· + ·) a ≤ rnd (pow2 126)
  | [], _, h1, h2, _ => ⟨h1, h2⟩
  | x :: l, a, h1, h2, h => by
    obtain ⟨x1, x2⟩ := h x (by simp)
    rw [List.foldl_cons]
    obtain ⟨hP, eP⟩ : ∃ h, rnd (pow2 126) = fin (pow2 126) h := ⟨by decide +kernel, by decide +kernel⟩
    obtain ⟨hQ, eQ⟩ : ∃ h, rnd (pow2 100) = fin (pow2 100) h := ⟨by decide +kernel, by decide +kernel⟩
    have hn : a + x ≠ nan := by
      rw [eP, neg_fin] at h1; rw [eP] at h2
      rw [eQ, neg_fin] at x1; rw [eQ] at x2
      obtain ⟨u, hu, rfl, _, _⟩ := between_cases h1 h2
      obtain ⟨w, hw, rfl, _, _⟩ := between_cases x1 x2
      rw [add_fin]; exact rnd_ne_nan _
    refine sum_bounded l (a + x) ?_ ?_ (fun y hy => h y (by simp [hy]))
    · exact F32.le_trans (by decide +kernel) (F32.add_le_add h1 x1 (by decide +kernel) hn)
    · exact F32.le_trans (F32.add_le_add h2 x2 hn (by decide +kernel)) (by decide +kernel)

theorem clarity_unit (scores : List (Key × F32)) (hr : ∀ p ∈ scores, -rnd (pow2 120) ≤ p.2 ∧ p.2 ≤ rnd (pow2 120))
    (hS : -rnd (pow2 126) ≤ F32.sum (scores.map Prod.snd) ∧ F32.sum (scores.map Prod.snd) ≤ rnd (pow2 126)) :
    ∃ c, keyClarity scores = .ok c ∧ 0 ≤ c ∧ c ≤ 1 := by
  by_cases h2 : 2 ≤ scores.length
  · obtain ⟨best, lo, hi, hb, hlo, hhi, hall, e⟩ := clarity_eq h2 (fun p hp => ne_nan_left (hr p hp).2)
    rw [e]
    by_cases hc : 1e-10 < hi - lo
    · rw [if_pos hc]
      refine ⟨_, rfl, clamp01 ?_⟩
      have hmem : ∀ x ∈ scores.map Prod.snd, -rnd (pow2 120) ≤ x ∧ x ≤ rnd (pow2 120) := by
        intro x hx; obtain ⟨p, hp, rfl⟩ := List.mem_map.1 hx; exact hr p hp
      obtain ⟨hP, eP⟩ : ∃ h, rnd (pow2 126) = fin (pow2 126) h := ⟨by decide +kernel, by decide +kernel⟩
      obtain ⟨hQ, eQ⟩ : ∃ h, rnd (pow2 120) = fin (pow2 120) h := ⟨by decide +kernel, by decide +kernel⟩
      obtain ⟨s1, s2⟩ := hS
      have hbest := hmem best (List.mem_of_mem_head? hb)
      have hlo' := hmem lo hlo
      have hhi' := hmem hi hhi
      rw [eP, neg_fin] at s1; rw [eP] at s2
      rw [eQ, neg_fin] at hbest hlo' hhi'
      obtain ⟨S, hS, eS, S1, S2⟩ := between_cases s1 s2
      obtain ⟨b, hbv, rfl, b1, b2⟩ := between_cases hbest.1 hbest.2
      obtain ⟨u, hu, rfl, u1, u2⟩ := between_cases hlo'.1 hlo'.2
      obtain ⟨w, hw, rfl, w1, w2⟩ := between_cases hhi'.1 hhi'.2
      have hsum : F32.sum (scores.map Prod.snd) = fin S hS := eS
      rw [hsum]
      have hrange : ∃ r hrr, (fin w hw - fin u hu : F32) = fin r hrr ∧ 0 < r := by
        rw [sub_fin] at hc ⊢
        have h121 : pow2 121 = pow2 120 * 2 := by rw [show (121 : ℤ) = 120 + 1 by norm_num, pow2_add]; norm_num [pow2]
        obtain ⟨hz, ez, _⟩ := rnd_finite_of_abs_le (q := w - u) (b := pow2 121) (by decide +kernel) (by
          rw [_root_.abs_le]; constructor <;> linarith)
        rw [ez] at hc ⊢
        refine ⟨_, hz, rfl, ?_⟩
        have := F32.lt_trans (by decide +kernel : (0 : F32) < 1e-10) hc
        rw [zero_def] at this
        exact fin_lt_fin.1 this
      obtain ⟨r, hrr, er, r0⟩ := hrange
      rw [er]
      have havg : ∃ q hq, (fin S hS / F32.ofNat scores.length : F32) = fin q hq ∧ |q| ≤ pow2 126 := by
        have ho := one_le_ofNat (n := scores.length) (by omega)
        rcases nonneg_cases (ofNat_nonneg scores.length) with e | ⟨n, hn, e, _⟩
        · rw [e, fin_div_inf]
          exact ⟨0, grid_zero, by rw [← zero_def], by rw [abs_zero]; exact (pow2_pos _).le⟩
        · rw [e, one_def] at ho
          have hn1 := fin_le_fin.1 ho
          rw [e, div_fin (by linarith)]
          obtain ⟨hz, ez, bz⟩ := rnd_finite_of_abs_le (q := S / n) (b := pow2 126) (by decide +kernel) (by
            rw [abs_div, abs_of_pos (by linarith : 0 < n)]
            refine _root_.le_trans (div_le_self (abs_nonneg _) hn1) ?_
            rw [_root_.abs_le]; exact ⟨S1, S2⟩)
          exact ⟨_, hz, ez, bz⟩
      obtain ⟨q, hq, eq, q1⟩ := havg
      rw [eq, sub_fin]
      have h127 : pow2 127 = pow2 126 * 2 := by rw [show (127 : ℤ) = 126 + 1 by norm_num, pow2_add]; norm_num [pow2]
      have h120 : pow2 120 ≤ pow2 126 := pow2_le (by norm_num)
      obtain ⟨hz, ez, _⟩ := rnd_finite_of_abs_le (q := b - q) (b := pow2 127) (by decide +kernel) (by
        have := _root_.abs_le.1 q1
        rw [_root_.abs_le]; constructor <;> linarith [this.1, this.2])
      rw [ez, div_fin r0.ne']
      exact rnd_ne_nan _
    · rw [if_neg hc]; exact ⟨0, rfl, by decide +kernel, by decide +kernel⟩
  · match scores, h2 with
    | [], _ => exact ⟨0, rfl, by decide +kernel, by decide +kernel⟩
    | [_], _ => exact ⟨0, rfl, by decide +kernel, by decide +kernel⟩
    | _ :: _ :: _, h => simp at h

/-- **C43** (range; partial: scores within 2^100): the clarity exists and is in [0,1], for ranked and unranked lists. -/
theorem C43_range_partial (scores : List (Key × F32)) (hr : ∀ p ∈ scores, -rnd (pow2 100) ≤ p.2 ∧ p.2 ≤ rnd (pow2 100)) :
    ∃ c, keyClarity scores = .ok c ∧ 0 ≤ c ∧ c ≤ 1 := by
  refine clarity_unit scores (fun p hp => ⟨F32.le_trans (by decide +kernel) (hr p hp).1, F32.le_trans (hr p hp).2 (by decide +kernel)⟩) ?_
  refine sum_bounded (scores.map Prod.snd) 0 (by decide +kernel) (by decide +kernel) (fun x hx => ?_)
  obtain ⟨p, hp, rfl⟩ := List.mem_map.1 hx
  exact hr p hp

/-- non-vacuity: the doc example, 0.9 against four weaker scores -/
example : (∀ p ∈ ([(.major 0, 0.9), (.major 7, 0.5), (.minor 9, 0.4)] : List (Key × F32)),
    -rnd (pow2 100) ≤ p.2 ∧ p.2 ≤ rnd (pow2 100)) ∧
    (match keyClarity [(.major 0, 0.9), (.major 7, 0.5), (.minor 9, 0.4)] with
      | .ok c => decide (0.59 < c) && decide (c < 0.61) | .error _ => false) = true := by decide +kernel

/-- **C43** (no contrast): clarity is 0 with fewer than two scores and when all scores are equal. -/
theorem C43_zero (scores : List (Key × F32)) :
    (scores.length < 2 → keyClarity scores = .ok 0) ∧
    (∀ v, v ≠ nan → (∀ p ∈ scores, p.2 = v) → keyClarity scores = .ok 0) := by
  have h1 : scores.length < 2 → keyClarity scores = .ok 0 := by
    intro h
    match scores, h with
    | [], _ => rfl
    | [_], _ => rfl
    | _ :: _ :: _, h => simp only [List.length_cons] at h; omega
  refine ⟨h1, fun v hv hall => ?_⟩
  by_cases h2 : 2 ≤ scores.length
  · obtain ⟨best, lo, hi, hb, hlo, hhi, _, e⟩ := clarity_eq h2 (fun p hp => by rw [hall p hp]; exact hv)
    obtain ⟨p, hp, rfl⟩ := List.mem_map.1 hlo
    obtain ⟨q, hq, rfl⟩ := List.mem_map.1 hhi
    rw [hall p hp, hall q hq] at e
    rw [e, if_neg]
    rcases v with _ | s | ⟨x, hx⟩
    · exact absurd rfl hv
    · cases s <;> decide +kernel
    · rw [sub_fin, sub_self, rnd_zero]; decide +kernel
  · exact h1 (by omega)

/-- non-vacuity: a flat profile -/
example : (∀ p ∈ ([(.major 0, 0.5), (.major 7, 0.5)] : List (Key × F32)), p.2 = 0.5) := by decide +kernel

/-- **C43**: outside the claim, a NaN among two or more scores panics. -/
theorem C43_nan (scores : List (Key × F32)) (h2 : 2 ≤ scores.length) (hn : ∃ p ∈ scores, p.2 = nan) :
    keyClarity scores = R.panic := by
  have hmin : ∀ (l : List F32) (b : F32), l ≠ [] → (b = nan ∨ nan ∈ l) → minByP b l = R.panic := by
    intro l
    induction l with
    | nil => intro b h; exact absurd rfl h
    | cons x l ih =>
      intro b _ h
      rw [minByP]
      by_cases hb : b = nan
      · subst hb; rfl
      by_cases hx : x = nan
      · subst hx; simp [F32.isNaN]
      have hl : nan ∈ l := by
        rcases h with h | h
        · exact absurd h hb
        · rcases List.mem_cons.1 h with h | h
          · exact absurd h.symm hx
          · exact h
      rw [isNaN_false_iff.2 hb, isNaN_false_iff.2 hx]
      simp only [Bool.or_self, Bool.false_eq_true, if_false]
      split_ifs
      · exact ih x (List.ne_nil_of_mem hl) (Or.inr hl)
      · exact ih b (List.ne_nil_of_mem hl) (Or.inr hl)
  match scores, h2 with
  | a :: b :: l, _ =>
    unfold keyClarity
    simp only [List.map_cons]
    rw [hmin]
    · rfl
    · simp
    · obtain ⟨p, hp, hpn⟩ := hn
      rcases List.mem_cons.1 hp with rfl | hp
      · left; exact hpn
      · right
        have := List.mem_map_of_mem (f := Prod.snd) hp
        rw [hpn] at this
        simpa using this

/-- non-vacuity: 24 key scores one of which is NaN -/
example : ∃ p ∈ ([(.major 0, 0.5), (.major 7, nan)] : List (Key × F32)), p.2 = nan :=
  ⟨(.major 7, nan), by simp, rfl⟩

/-- **C43 violated** (monotonicity): raising the best of three scores from 1.0625 to 1.125 lowers the clarity in the last
place. -/
theorem C43_violated_monotone :
    (match keyClarity [(.major 0, 1.0625), (.major 7, 0.125), (.minor 9, 0.125)],
        keyClarity [(.major 0, 1.125), (.major 7, 0.125), (.minor 9, 0.125)] with
      | .ok c, .ok c' => decide (c' < c) | _, _ => false) = true := by decide +kernel

/-- **C43 violated** (range): ranked finite scores whose sum overflows give a NaN clarity. -/
theorem C43_violated_nan : keyClarity [(.major 0, 3e38), (.major 7, 3e38), (.minor 9, -3e38)] = .ok nan := by
  decide +kernel

end Verif.Props
