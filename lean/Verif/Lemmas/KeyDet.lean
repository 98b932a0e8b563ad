/-
Helper lemmas for key detection.
-/
import Verif.Model.KeyDet
import Verif.F32.Bounds
import Mathlib.Tactic.IntervalCases

namespace Verif.F32

theorem zero_add' (a : F32) : 0 + a = a := by
  rw [zero_def]
  rcases a with _ | s | ⟨v, hv⟩
  · rfl
  · rfl
  · rw [add_fin, _root_.zero_add, rnd_val hv]

theorem add_zero' (a : F32) : a + 0 = a := by rw [F32.add_comm, zero_add']

/-- two different grid values differ by at least one unit in the last place -/
theorem grid_rel_gap {a b : ℚ} (ha : OnGrid a) (hb : OnGrid b) (h0 : 0 ≤ a) (h : a < b) : a ≤ b * (1 - eps) := by
  have hbpos : 0 < b := _root_.lt_of_le_of_lt h0 h
  rcases eq_or_lt_of_le h0 with h0 | h0
  · subst h0
    have : (0:ℚ) < 1 - eps := by unfold eps; norm_num
    positivity
  set ua := pow2 (ulpExp a) with hua
  set ub := pow2 (ulpExp b) with hub
  have ka : a = (roundEven (a / ua) : ℚ) * ua := Eq.symm ha
  have kb : b = (roundEven (b / ub) : ℚ) * ub := Eq.symm hb
  have la : a < 2 ^ 24 * ua := by have := abs_lt_ulp a; rwa [abs_of_pos h0] at this
  have lb : b < 2 ^ 24 * ub := by have := abs_lt_ulp b; rwa [abs_of_pos hbpos] at this
  have hexp : ulpExp a ≤ ulpExp b := by
    unfold ulpExp
    have : Int.log 2 |a| ≤ Int.log 2 |b| := by
      apply Int.log_mono_right
      · rw [abs_of_pos h0]; exact h0
      · rw [abs_of_pos h0, abs_of_pos hbpos]; exact h.le
    omega
  have hpa : 0 < ua := pow2_pos _
  have hpb : 0 < ub := pow2_pos _
  rcases eq_or_lt_of_le hexp with he | he
  · have heq : ua = ub := by rw [hua, hub, he]
    rw [← heq] at kb lb
    have hlt : roundEven (a / ua) < roundEven (b / ua) := by
      rw [ka, kb] at h
      have := lt_of_mul_lt_mul_right h hpa.le
      exact_mod_cast this
    have : (roundEven (a / ua) : ℚ) + 1 ≤ (roundEven (b / ua) : ℚ) := by exact_mod_cast hlt
    have h1 : a ≤ b - ua := by rw [ka, kb]; nlinarith
    unfold eps; linarith
  · -- `a` is in a lower binade
    have hnorm : ulpExp b = Int.log 2 |b| - 23 := by
      have := ulpExp_ge a
      unfold ulpExp at he ⊢; unfold ulpExp at this; omega
    have hlow : pow2 23 * ub ≤ b := by
      rw [hub, hnorm, ← pow2_add, show (23 : ℤ) + (Int.log 2 |b| - 23) = Int.log 2 |b| by ring, pow2_eq]
      have := Int.zpow_log_le_self (b := 2) (r := |b|) (by norm_num) (by rw [abs_of_pos hbpos]; exact hbpos)
      rw [abs_of_pos hbpos] at this ⊢
      exact_mod_cast this
    have h23 : pow2 23 = 2 ^ 23 := pow2_nat 23
    rw [h23] at hlow
    have h2 : ua * 2 ≤ ub := by
      have : pow2 (ulpExp a + 1) ≤ pow2 (ulpExp b) := pow2_le (by omega)
      rw [pow2_add] at this
      have h1 : pow2 1 = 2 := by rw [pow2_eq]; norm_num
      rw [h1] at this; exact this
    by_cases hb23 : b ≤ 2 ^ 23 * ub
    · have hbe : b = 2 ^ 23 * ub := _root_.le_antisymm hb23 hlow
      rcases eq_or_lt_of_le (show ulpExp a + 1 ≤ ulpExp b by omega) with he2 | he2
      · have hu : ub = ua * 2 := by
          rw [hub, hua, ← he2, pow2_add]
          have h1 : pow2 1 = 2 := by rw [pow2_eq]; norm_num
          rw [h1]
        have hlt : roundEven (a / ua) < 2 ^ 24 := by
          rw [ka] at la
          have := lt_of_mul_lt_mul_right la hpa.le
          exact_mod_cast this
        have : (roundEven (a / ua) : ℚ) ≤ 2 ^ 24 - 1 := by
          have h3 : roundEven (a / ua) ≤ 2 ^ 24 - 1 := by omega
          exact_mod_cast h3
        have h1 : a ≤ (2 ^ 24 - 1) * ua := by rw [ka]; nlinarith
        rw [hbe, hu]; unfold eps; linarith
      · have h4 : ua * 4 ≤ ub := by
          have : pow2 (ulpExp a + 2) ≤ pow2 (ulpExp b) := pow2_le (by omega)
          rw [pow2_add] at this
          have h1 : pow2 2 = 4 := by rw [pow2_eq]; norm_num
          rw [h1] at this; exact this
        unfold eps; linarith
    · push Not at hb23
      have hlt : (2 ^ 23 : ℤ) < roundEven (b / ub) := by
        rw [kb] at hb23
        have := lt_of_mul_lt_mul_right hb23 hpb.le
        exact_mod_cast this
      have : (2 ^ 23 + 1 : ℚ) ≤ roundEven (b / ub) := by
        have h3 : (2 ^ 23 + 1 : ℤ) ≤ roundEven (b / ub) := by omega
        exact_mod_cast h3
      have h1 : (2 ^ 23 + 1) * ub ≤ b := by rw [kb]; nlinarith
      unfold eps; linarith

/-- a quotient of a smaller by a larger number is below 1 even after rounding -/
theorem div_lt_one {a b : ℚ} {ha hb} (h0 : 0 ≤ a) (h : a < b) : fin a ha / fin b hb < 1 := by
  have hb0 : 0 < b := _root_.lt_of_le_of_lt h0 h
  rw [div_fin hb0.ne']
  have h1 : a / b ≤ 1 - eps := by
    rw [div_le_iff₀ hb0, _root_.mul_comm]; exact grid_rel_gap ha.1 hb.1 h0 h
  exact lt_of_le_of_lt (rnd_mono h1) (by decide +kernel)

theorem div_self' {a : ℚ} {ha} (h : 0 < a) : fin a ha / fin a ha = 1 := by
  rw [div_fin h.ne', div_self h.ne', rnd_one]

end Verif.F32

namespace Verif.KeyDet
open Verif Verif.Keys F32

theorem maxByE_mem {α} (key : α → F32) : ∀ (l : List α) (b : α), maxByE key b l = b ∨ maxByE key b l ∈ l
  | [], _ => Or.inl rfl
  | x :: l, b => by
    unfold maxByE; rw [List.foldl_cons]
    have := maxByE_mem key l (if key x < key b then b else x)
    unfold maxByE at this
    split_ifs at this ⊢
    · rcases this with h | h
      · left; exact h
      · right; exact List.mem_cons_of_mem _ h
    · right
      rcases this with h | h
      · rw [h]; simp
      · exact List.mem_cons_of_mem _ h

theorem maxByE_max {α} (key : α → F32) : ∀ (l : List α) (b : α), key b ≠ nan → (∀ x ∈ l, key x ≠ nan) →
    key b ≤ key (maxByE key b l) ∧ ∀ x ∈ l, key x ≤ key (maxByE key b l)
  | [], b, hb, _ => ⟨F32.le_refl hb, by simp⟩
  | x :: l, b, hb, h => by
    have hx := h x (by simp)
    unfold maxByE; rw [List.foldl_cons]
    have := maxByE_max key l (if key x < key b then b else x) (by split_ifs <;> assumption) (fun y hy => h y (by simp [hy]))
    unfold maxByE at this
    by_cases hc : key x < key b
    · simp only [if_pos hc] at this ⊢
      refine ⟨this.1, fun y hy => ?_⟩
      rcases List.mem_cons.1 hy with rfl | hy
      · exact F32.le_trans (F32.le_of_lt hc) this.1
      · exact this.2 y hy
    · simp only [if_neg hc] at this ⊢
      refine ⟨F32.le_trans (F32.le_of_not_lt hb hx hc) this.1, fun y hy => ?_⟩
      rcases List.mem_cons.1 hy with rfl | hy
      · exact this.1
      · exact this.2 y hy

theorem maxByOr_mem {α} (key : α → F32) {d : α} {l : List α} (h : l ≠ []) : maxByOr key d l ∈ l := by
  match l, h with
  | b :: l, _ =>
    rcases maxByE_mem key l b with h | h
    · show maxByE key b l ∈ _; rw [h]; simp
    · exact List.mem_cons_of_mem _ h

theorem maxByOr_max {α} (key : α → F32) {d : α} {l : List α} (hn : ∀ x ∈ l, key x ≠ nan) :
    ∀ x ∈ l, key x ≤ key (maxByOr key d l) := by
  match l with
  | [] => simp
  | b :: l =>
    intro x hx
    have := maxByE_max key l b (hn b (by simp)) (fun y hy => hn y (by simp [hy]))
    rcases List.mem_cons.1 hx with rfl | hx
    · exact this.1
    · exact this.2 x hx

/-- ties at the top when the threshold test passes for a best score that is not a positive finite number -/
theorem thr_tie {b s t : F32} (hb : ¬ (0 < b ∧ b.isFinite = true)) (hs : s ≤ b) (ht : t ≤ s) (h1 : b * 0.95 ≤ s)
    (h2 : b * 0.95 * 0.90 ≤ t) : s = b ∧ t = b := by
  obtain ⟨g95, e95⟩ : ∃ h, (0.95 : F32) = fin (0.95 : F32).val h := ⟨by decide +kernel, by decide +kernel⟩
  obtain ⟨g90, e90⟩ : ∃ h, (0.90 : F32) = fin (0.90 : F32).val h := ⟨by decide +kernel, by decide +kernel⟩
  have p95 : 0 < (0.95 : F32).val ∧ (0.95 : F32).val ≤ 1 := by decide +kernel
  have p90 : 0 < (0.90 : F32).val ∧ (0.90 : F32).val ≤ 1 := by decide +kernel
  generalize (0.95 : F32).val = u at *
  generalize (0.90 : F32).val = w at *
  have key : b ≤ b * 0.95 ∧ b ≤ b * 0.95 * 0.90 := by
    rcases b with _ | c | ⟨v, hv⟩
    · exact absurd rfl (ne_nan_right hs)
    · rw [e95, e90, inf_mul_fin, if_neg p95.1.ne', inf_mul_fin, if_neg p90.1.ne']
      rw [show decide (u < 0) = false from decide_eq_false (not_lt.2 p95.1.le),
        show decide (w < 0) = false from decide_eq_false (not_lt.2 p90.1.le)]
      cases c <;> decide +kernel
    · have hv0 : v ≤ 0 := by
        by_contra hc; push Not at hc
        exact hb ⟨by rw [zero_def]; exact fin_lt_fin.2 hc, rfl⟩
      have a1 : fin v hv ≤ fin v hv * 0.95 := by
        rw [e95, mul_fin]; apply fin_le_rnd; nlinarith
      have a2 : fin v hv * 0.95 ≤ 0 := by
        rw [e95, mul_fin]; apply rnd_nonpos; nlinarith
      refine ⟨a1, F32.le_trans a1 ?_⟩
      rw [zero_def] at a2
      obtain ⟨z, hz, ez, z1, z2⟩ := between_cases a1 a2
      rw [ez, e90, mul_fin]; apply fin_le_rnd; nlinarith
  have hsb : s = b := F32.le_antisymm hs (F32.le_trans key.1 h1)
  exact ⟨hsb, F32.le_antisymm (F32.le_trans ht hs) (F32.le_trans key.2 h2)⟩

/-- the reported key has the best score, whatever the hash order -/
theorem finalKey_max {ord : List (Key × F32) → List (Key × F32)} (hord : ∀ l, (ord l).Perm l) {scores : List (Key × F32)}
    (hlen : 3 ≤ scores.length) (hn : ∀ p ∈ scores, p.2 ≠ nan) (hnd : (scores.map Prod.fst).Nodup)
    (hs : scores.Pairwise (fun a b => b.2 ≤ a.2)) :
    ∃ s, (finalKey ord scores, s) ∈ scores.take 3 ∧ ∀ p ∈ scores, p.2 ≤ s := by
  match scores, hlen with
  | p1 :: p2 :: p3 :: rest, _ =>
    obtain ⟨k1, s1⟩ := p1
    obtain ⟨k2, s2⟩ := p2
    obtain ⟨k3, s3⟩ := p3
    have hs1 := (List.pairwise_cons.1 hs).1
    have hs2 := (List.pairwise_cons.1 (List.pairwise_cons.1 hs).2).1
    have n1 : s1 ≠ nan := hn (k1, s1) (by simp)
    have h21 : s2 ≤ s1 := hs1 (k2, s2) (by simp)
    have h31 : s3 ≤ s1 := hs1 (k3, s3) (by simp)
    have h32 : s3 ≤ s2 := hs2 (k3, s3) (by simp)
    have hmax : ∀ p ∈ (k1, s1) :: (k2, s2) :: (k3, s3) :: rest, p.2 ≤ s1 := by
      intro p hp
      rcases List.mem_cons.1 hp with rfl | hp
      · exact F32.le_refl n1
      · exact hs1 p hp
    have hk : k1 ≠ k2 ∧ k1 ≠ k3 ∧ k2 ≠ k3 := by
      simp only [List.map_cons, List.nodup_cons, List.mem_cons, not_or] at hnd
      exact ⟨hnd.1.1, hnd.1.2.1, hnd.2.1.1⟩
    unfold finalKey
    simp only [List.getD_cons_zero, List.getD_cons_succ]
    by_cases hc : s1 * 0.95 ≤ s2 ∧ s1 * 0.95 * 0.90 ≤ s3
    · rw [if_pos hc]
      have hv : (((k1, s1) :: (k2, s2) :: (k3, s3) :: rest).take 3).foldl (fun m p => addVote p.1 (p.2 / s1) m) [] =
          [(k1, s1 / s1), (k2, s2 / s1), (k3, s3 / s1)] := by
        simp only [List.take_succ_cons, List.take_zero, List.foldl_cons, List.foldl_nil, addVote, zero_add', if_neg hk.1,
          if_neg hk.2.1, if_neg hk.2.2]
      rw [hv]
      set votes := [(k1, s1 / s1), (k2, s2 / s1), (k3, s3 / s1)] with hvotes
      have hne : ord votes ≠ [] := by
        intro he; have := (hord votes).length_eq; rw [he] at this; simp [hvotes] at this
      have hm := (hord votes).mem_iff.1 (maxByOr_mem Prod.snd (d := (k1, 0)) hne)
      by_cases hpos : 0 < s1 ∧ s1.isFinite = true
      · obtain ⟨v1, g1, rfl⟩ := le_fin_val hpos.2
        have hv1 : 0 < v1 := by have := hpos.1; rw [zero_def] at this; exact fin_lt_fin.1 this
        have lowpos : 0 ≤ fin v1 g1 * 0.95 := by
          apply F32.mul_nonneg (F32.le_of_lt hpos.1) (by decide +kernel)
          exact mul_fin_ne_nan hpos.2 (by decide +kernel)
        have h2pos : 0 ≤ s2 := F32.le_trans lowpos hc.1
        have lowpos3 : 0 ≤ fin v1 g1 * 0.95 * 0.90 := by
          apply F32.mul_nonneg lowpos (by decide +kernel)
          exact ne_nan_left hc.2
        have h3pos : 0 ≤ s3 := F32.le_trans lowpos3 hc.2
        rw [zero_def] at h2pos h3pos
        obtain ⟨v2, g2, rfl, v20, v21⟩ := between_cases h2pos h21
        obtain ⟨v3, g3, rfl, v30, v31⟩ := between_cases h3pos h31
        have hnn : ∀ x ∈ ord votes, x.2 ≠ nan := by
          intro x hx
          have := (hord votes).mem_iff.1 hx
          rw [hvotes] at this
          simp only [List.mem_cons, List.not_mem_nil, or_false] at this
          rcases this with rfl | rfl | rfl
          · show fin v1 g1 / fin v1 g1 ≠ nan; rw [div_fin hv1.ne']; exact rnd_ne_nan _
          · show fin v2 g2 / fin v1 g1 ≠ nan; rw [div_fin hv1.ne']; exact rnd_ne_nan _
          · show fin v3 g3 / fin v1 g1 ≠ nan; rw [div_fin hv1.ne']; exact rnd_ne_nan _
        have hmx := maxByOr_max Prod.snd (d := (k1, (0 : F32))) hnn (k1, fin v1 g1 / fin v1 g1)
          ((hord votes).mem_iff.2 (by rw [hvotes]; simp))
        rw [show ((k1, fin v1 g1 / fin v1 g1) : Key × F32).2 = 1 from div_self' hv1] at hmx
        generalize maxByOr Prod.snd (k1, (0 : F32)) (ord votes) = r at hm hmx ⊢
        refine ⟨fin v1 g1, ?_, hmax⟩
        rw [hvotes] at hm
        simp only [List.mem_cons, List.not_mem_nil, or_false] at hm
        rcases hm with rfl | rfl | rfl
        · simp
        · have : v2 = v1 := by
            rcases eq_or_lt_of_le v21 with h | h
            · exact h
            · exact absurd (F32.lt_of_le_of_lt hmx (F32.div_lt_one v20 h)) (F32.lt_irrefl _)
          subst this; simp
        · have : v3 = v1 := by
            rcases eq_or_lt_of_le v31 with h | h
            · exact h
            · exact absurd (F32.lt_of_le_of_lt hmx (F32.div_lt_one v30 h)) (F32.lt_irrefl _)
          subst this; simp
      · obtain ⟨e2, e3⟩ := thr_tie hpos h21 h32 hc.1 hc.2
        generalize maxByOr Prod.snd (k1, (0 : F32)) (ord votes) = r at hm ⊢
        refine ⟨s1, ?_, hmax⟩
        rw [hvotes] at hm
        simp only [List.mem_cons, List.not_mem_nil, or_false] at hm
        rcases hm with rfl | rfl | rfl
        · simp
        · rw [e2]; simp
        · rw [e3]; simp
    · rw [if_neg hc]
      exact ⟨s1, by simp, hmax⟩

/-! the ranking has every key once -/

theorem refineOne_fst (ref p : Key × F32) : (refineOne ref p).1 = p.1 := by
  unfold refineOne; dsimp only; split_ifs <;> rfl

theorem refineScores_fst (l : List (Key × F32)) : (refineScores l).map Prod.fst = l.map Prod.fst := by
  unfold refineScores
  simp only [List.map_map]
  apply List.map_congr_left
  intro p _
  exact refineOne_fst _ _

theorem normScores_fst (l : List (Key × F32)) : (normScores l).map Prod.fst = l.map Prod.fst := by
  unfold normScores; dsimp only
  split_ifs
  · simp only [List.map_map]; rfl
  · rfl

theorem rawScores_fst (chroma : List (List F32)) (T : Templates) (w : Option (List F32)) :
    (rawScores chroma T w).map Prod.fst = allKeys := by
  unfold rawScores allKeys
  rw [List.map_append, List.map_map, List.map_map]; rfl

theorem allKeys_nodup : allKeys.Nodup := by decide +kernel

/-- what a successful detection consists of -/
theorem detectKey_ok {ord : List (Key × F32) → List (Key × F32)} {chroma : List (List F32)} {T : Templates}
    {weights : Option (List F32)} {r : Res} (h : detectKey ord chroma T weights = .ok r) :
    let L := refineScores (normScores (rawScores chroma T weights))
    (∀ p ∈ L, p.2 ≠ nan) ∧ r.all = sortDesc Prod.snd L ∧ r.key = finalKey ord r.all ∧
    r.conf = margin (findScore (fun k => decide (k = r.key)) r.all (r.all.getD 0 (.major 0, 0)).2)
      (findScore (fun k => decide (k ≠ r.key)) r.all 0) ∧ r.top = r.all.take 3 := by
  intro L
  unfold detectKey at h
  split_ifs at h
  unfold sortDescP at h
  split_ifs at h with hc
  · exact absurd h (by simp [bind, Except.bind])
  · simp only [bind, Except.bind, pure, Except.pure, Except.ok.injEq] at h
    subst h
    refine ⟨?_, rfl, rfl, rfl, rfl⟩
    intro p hp hpn
    apply hc
    unfold sortMeetsNaN
    rw [Bool.and_eq_true, decide_eq_true_eq, List.any_eq_true]
    refine ⟨?_, p, hp, by rw [hpn]; rfl⟩
    have : L.length = 24 := by
      have := congrArg List.length (refineScores_fst (normScores (rawScores chroma T weights)))
      rw [normScores_fst, rawScores_fst] at this
      rw [List.length_map] at this
      exact this.trans (by decide +kernel)
    show 2 ≤ L.length
    omega

theorem detectKey_all {ord : List (Key × F32) → List (Key × F32)} {chroma : List (List F32)} {T : Templates}
    {weights : Option (List F32)} {r : Res} (h : detectKey ord chroma T weights = .ok r) :
    (r.all.map Prod.fst).Perm allKeys ∧ (∀ p ∈ r.all, p.2 ≠ nan) ∧ r.all.Pairwise (fun a b => b.2 ≤ a.2) := by
  obtain ⟨hn, e, _⟩ := detectKey_ok h
  refine ⟨?_, ?_, ?_⟩
  · rw [e]
    refine ((sortDesc_perm _).map _).trans ?_
    rw [refineScores_fst, normScores_fst, rawScores_fst]
  · intro p hp; rw [e, mem_sortDesc] at hp; exact hn p hp
  · rw [e]; exact sortDesc_pairwise hn

end Verif.KeyDet
