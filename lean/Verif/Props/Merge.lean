/-
Properties C18 (ranking comparator), C19 (candidate merge): src/features/period/candidate_filter.rs.
-/
import Verif.Lemmas.Merge

namespace Verif.Props
open Verif Verif.Period F32

/-- Specification: a comparison function is a total preorder on the values satisfying `P`. -/
structure Preorder3 {α : Type} (P : α → Prop) (cmp : α → α → Ordering) : Prop where
  refl : ∀ a, P a → cmp a a = .eq
  swap : ∀ a b, P a → P b → cmp b a = (cmp a b).swap
  trans : ∀ a b c, P a → P b → P c → cmp a b ≠ .gt → cmp b c ≠ .gt → cmp a c ≠ .gt
  strict : ∀ a b c, P a → P b → P c → cmp a b = .lt → cmp b c ≠ .gt → cmp a c = .lt
  ties : ∀ a b c, P a → P b → P c → cmp a b = .eq → cmp a c = cmp b c

/-- **C18**: the ranking comparator is a total preorder on estimates with a NaN-free confidence
(whatever the BPM). -/
theorem C18_total_preorder : Preorder3 (fun e : Est => e.conf ≠ nan) cmpEst := by
  have hne : ∀ {a b : Est}, a.conf ≠ nan → b.conf ≠ nan → (cmpEst a b ≠ .gt ↔ rank b ≤ rank a) :=
    fun ha hb => by rw [Ne, cmpEst_gt ha hb, not_lt]
  have heq : ∀ {a b : Est}, a.conf ≠ nan → b.conf ≠ nan → (cmpEst a b = .eq ↔ rank a = rank b) := by
    intro a b ha hb
    constructor
    · intro h
      refine _root_.le_antisymm ?_ ?_
      · rw [← not_lt, ← cmpEst_lt ha hb, h]; simp
      · rw [← not_lt, ← cmpEst_gt ha hb, h]; simp
    · intro h
      cases hc : cmpEst a b with
      | eq => rfl
      | lt => rw [cmpEst_lt ha hb, h] at hc; exact absurd hc (_root_.lt_irrefl _)
      | gt => rw [cmpEst_gt ha hb, h] at hc; exact absurd hc (_root_.lt_irrefl _)
  have hswap : ∀ a b : Est, a.conf ≠ nan → b.conf ≠ nan → cmpEst b a = (cmpEst a b).swap := by
    intro a b ha hb
    cases hc : cmpEst a b with
    | eq => rw [heq ha hb] at hc; exact (heq hb ha).2 hc.symm
    | lt => rw [cmpEst_lt ha hb] at hc; exact (cmpEst_gt hb ha).2 hc
    | gt => rw [cmpEst_gt ha hb] at hc; exact (cmpEst_lt hb ha).2 hc
  refine ⟨fun a ha => (heq ha ha).2 rfl, hswap, ?_, ?_, ?_⟩
  · intro a b c ha hb hc h1 h2
    rw [hne ha hb] at h1; rw [hne hb hc] at h2; rw [hne ha hc]
    exact h2.trans h1
  · intro a b c ha hb hc h1 h2
    rw [cmpEst_lt ha hb] at h1; rw [hne hb hc] at h2; rw [cmpEst_lt ha hc]
    exact _root_.lt_of_le_of_lt h2 h1
  · intro a b c ha hb hc h
    rw [heq ha hb] at h
    cases h2 : cmpEst b c with
    | eq => rw [heq hb hc] at h2; exact (heq ha hc).2 (h.trans h2)
    | lt => rw [cmpEst_lt hb hc] at h2; exact (cmpEst_lt ha hc).2 (by rw [h]; exact h2)
    | gt => rw [cmpEst_gt hb hc] at h2; exact (cmpEst_gt ha hc).2 (by rw [h]; exact h2)

/-- **C18**: any two rankings of the same estimates agree position by position up to ties, so the
result does not depend on the sorting algorithm. -/
theorem C18_ranking_unique {l l₁ l₂ : List Est} (hn : ∀ e ∈ l, e.conf ≠ nan) (p₁ : l₁.Perm l) (p₂ : l₂.Perm l)
    (s₁ : l₁.Pairwise (fun a b => cmpEst a b ≠ .gt)) (s₂ : l₂.Pairwise (fun a b => cmpEst a b ≠ .gt)) :
    List.Forall₂ (fun a b => cmpEst a b = .eq) l₁ l₂ := by
  have hn1 : ∀ e ∈ l₁, e.conf ≠ nan := fun e he => hn e (p₁.mem_iff.1 he)
  have hn2 : ∀ e ∈ l₂, e.conf ≠ nan := fun e he => hn e (p₂.mem_iff.1 he)
  have toRank : ∀ m : List Est, (∀ e ∈ m, e.conf ≠ nan) → m.Pairwise (fun a b => cmpEst a b ≠ .gt) →
      (m.map rank).Pairwise (fun a b => b ≤ a) := by
    intro m hm hs
    rw [List.pairwise_map]
    refine List.Pairwise.imp_of_mem ?_ hs
    intro a b ha hb h
    rwa [Ne, cmpEst_gt (hm a ha) (hm b hb), not_lt] at h
  have hp : (l₁.map rank).Perm (l₂.map rank) := (p₁.trans p₂.symm).map rank
  have he : l₁.map rank = l₂.map rank :=
    hp.eq_of_pairwise (fun a b _ _ h1 h2 => _root_.le_antisymm h2 h1) (toRank _ hn1 s₁) (toRank _ hn2 s₂)
  rw [List.forall₂_iff_get]
  have hlen : l₁.length = l₂.length := by simpa using congrArg List.length he
  refine ⟨hlen, fun i h1 h2 => ?_⟩
  have hr : rank l₁[i] = rank l₂[i] := by
    have : (l₁.map rank)[i]'(by simpa using h1) = (l₂.map rank)[i]'(by simpa using h2) := by simp only [he]
    simpa using this
  have ha := hn1 _ (List.getElem_mem h1)
  have hb := hn2 _ (List.getElem_mem h2)
  simp only [List.get_eq_getElem]
  cases hc : cmpEst l₁[i] l₂[i] with
  | eq => rfl
  | lt => rw [cmpEst_lt ha hb, hr] at hc; exact absurd hc (_root_.lt_irrefl _)
  | gt => rw [cmpEst_gt ha hb, hr] at hc; exact absurd hc (_root_.lt_irrefl _)

/-- **C18**, what the order means: between a 60-180 BPM estimate `a` and one outside, with finite
confidences, `a` comes first unless half of `b`'s confidence is at least 0.5 higher; two estimates of the
same kind are ordered by confidence (halved outside the range), then by agreement. -/
theorem C18_rule {a b : Est} (ha : a.conf.isFinite = true) (hb : b.conf.isFinite = true) :
    ((60 ≤ a.bpm ∧ a.bpm ≤ 180) → ¬ (60 ≤ b.bpm ∧ b.bpm ≤ 180) →
      (cmpEst a b = .lt ∧ b.conf * 0.5 - a.conf < 0.5) ∨ (cmpEst a b = .gt ∧ 0.5 ≤ b.conf * 0.5 - a.conf)) ∧
    ((60 ≤ a.bpm ∧ a.bpm ≤ 180) → (60 ≤ b.bpm ∧ b.bpm ≤ 180) →
      (cmpEst a b = .lt ↔ b.conf < a.conf ∨ (a.conf = b.conf ∧ b.agreement < a.agreement))) ∧
    (¬ (60 ≤ a.bpm ∧ a.bpm ≤ 180) → ¬ (60 ≤ b.bpm ∧ b.bpm ≤ 180) →
      (cmpEst a b = .lt ↔ b.conf * 0.5 < a.conf * 0.5 ∨
        (a.conf * 0.5 = b.conf * 0.5 ∧ b.agreement < a.agreement))) := by
  have hr : ∀ {e : Est}, reasonable e.bpm = true ↔ (60 ≤ e.bpm ∧ e.bpm ≤ 180) := by
    intro e; simp [reasonable]
  have hh : (0.5 : F32) = fin (1 / 2) (by decide +kernel) := by decide +kernel
  obtain ⟨v, hv, hav⟩ := isFinite_iff.1 ha
  obtain ⟨w, hw, hbw⟩ := isFinite_iff.1 hb
  have hhalf : ∀ x : F32, x.isFinite = true → ∃ z hz, x * 0.5 = fin z hz := by
    intro x hx
    obtain ⟨w, hw, rfl⟩ := isFinite_iff.1 hx
    rw [hh, mul_fin]
    obtain ⟨hq, e, _⟩ := rnd_finite_of_abs_le (q := w * (1 / 2)) (b := |w|) (abs_aux hw) (by
      rw [_root_.abs_mul]
      have := _root_.abs_nonneg w
      rw [show |(1 / 2 : ℚ)| = 1 / 2 by norm_num]; linarith)
    exact ⟨_, hq, e⟩
  refine ⟨?_, ?_, ?_⟩
  · intro h1 h2
    rw [← hr] at h1 h2
    rw [Bool.not_eq_true] at h2
    obtain ⟨z, hz, hbz⟩ := hhalf _ hb
    have ea : effConf a = fin v hv := by unfold effConf; rw [if_pos h1, hav]
    have eb : effConf b = fin z hz := by unfold effConf; rw [h2, if_neg (by simp), hbz]
    rw [cmpEst_core, ea, eb, h1, h2, cmpCore_fin, hbz, hav]
    have hpos : 0 < half' := by decide +kernel
    have hlt : fin z hz - fin v hv < (0.5 : F32) ↔ z - v < half' := by
      rcases _root_.le_or_gt 0 (z - v) with h0 | h0
      · have h3 := abs_sub_lt_half (v := z) (w := v) (hv := hz) (hw := hv)
        rw [sub_fin, abs_rnd, abs_of_nonneg h0] at h3
        rw [sub_fin, h3]
      · refine iff_of_true ?_ (by linarith)
        rw [sub_fin]
        exact lt_of_le_of_lt (rnd_nonpos h0.le) (by decide +kernel)
    have hle : (0.5 : F32) ≤ fin z hz - fin v hv ↔ ¬ z - v < half' := by
      rw [← hlt]
      constructor
      · exact not_lt_of_le
      · intro h
        exact le_of_not_lt (by decide +kernel) (by rw [sub_fin]; exact rnd_ne_nan _) h
    rw [hlt, hle]
    by_cases h : z - v < half'
    · left
      refine ⟨?_, h⟩
      by_cases h' : |v - z| < half'
      · rw [if_pos ⟨h', rfl, rfl⟩]
      · rw [if_neg (fun hc => h' hc.1), if_neg (fun hc => h' hc.1), if_pos]
        rw [abs_lt, not_and_or] at h'
        rcases h' with h' | h' <;> linarith
    · right
      refine ⟨?_, h⟩
      have h' : ¬ |v - z| < half' := fun hc => h (by linarith [(abs_lt.1 hc).1])
      rw [if_neg (fun hc => h' hc.1), if_neg (fun hc => h' hc.1), if_neg (by linarith), if_pos (by linarith)]
  · intro h1 h2
    rw [← hr] at h1 h2
    have ea : effConf a = fin v hv := by unfold effConf; rw [if_pos h1, hav]
    have eb : effConf b = fin w hw := by unfold effConf; rw [if_pos h2, hbw]
    rw [cmpEst_core, ea, eb, h1, h2, cmpCore_fin, hav, hbw, fin_lt_fin]
    simp only [Bool.true_eq_false, and_false, false_and, if_false, fin.injEq]
    split_ifs with h3 h4
    · simp [h3]
    · simp; exact ⟨h4.le, fun h => absurd h h4.ne⟩
    · have : v = w := _root_.le_antisymm (not_lt.1 h3) (not_lt.1 h4)
      simp [Nat.compare_eq_lt, this]

  · intro h1 h2
    rw [← hr] at h1 h2
    rw [Bool.not_eq_true] at h1 h2
    obtain ⟨y, hy, hay⟩ := hhalf _ ha
    obtain ⟨z, hz, hbz⟩ := hhalf _ hb
    have ea : effConf a = fin y hy := by unfold effConf; rw [h1, if_neg (by simp), hay]
    have eb : effConf b = fin z hz := by unfold effConf; rw [h2, if_neg (by simp), hbz]
    rw [cmpEst_core, ea, eb, h1, h2, cmpCore_fin, hay, hbz, fin_lt_fin]
    simp only [Bool.false_eq_true, and_false, false_and, if_false, fin.injEq]
    split_ifs with h3 h4
    · simp [h3]
    · simp; exact ⟨h4.le, fun h => absurd h h4.ne⟩
    · have : y = z := _root_.le_antisymm (not_lt.1 h3) (not_lt.1 h4)
      simp [Nat.compare_eq_lt, this]

/-- non-vacuity: a strong out-of-range estimate passes an in-range one, a weaker one does not -/
example : cmpEst ⟨120, 0.4, 1⟩ ⟨240, 1.9, 2⟩ = .gt ∧ cmpEst ⟨120, 0.4, 1⟩ ⟨240, 1.7, 2⟩ = .lt ∧
    cmpEst ⟨120, 0.4, 3⟩ ⟨90, 0.4, 2⟩ = .lt := by decide +kernel

/-- **C19 (partial)**: the merge is empty only when both inputs are; it counts at least the ten best
candidates of each list and none twice; every estimate has agreement at least one, a confidence in
`[0, 4.2]` and a BPM in the span of the input BPMs: exactly so up to agreement 2, and up to a relative
rounding error of `2^-24` per floating-point operation beyond.  What is missing from the full claim is the exact
span for three or more candidates, which is false (`C19_violated`). -/
theorem C19_merge_partial (M : Libm) (ac cb : List Cand) (tol lo hi : F32)
    (hac : ∀ c ∈ ac, lo ≤ c.bpm ∧ c.bpm ≤ hi ∧ 0 ≤ c.conf) (hcb : ∀ c ∈ cb, lo ≤ c.bpm ∧ c.bpm ≤ hi ∧ 0 ≤ c.conf)
    (hlo : 1e-15 ≤ lo) (hhi : hi ≤ 1e15) (hlen : ac.length + cb.length ≤ 2 ^ 20) :
    (merge M ac cb tol = [] ↔ ac = [] ∧ cb = []) ∧
    (∀ e ∈ merge M ac cb tol, 1 ≤ e.agreement ∧ 0 ≤ e.conf ∧ e.conf ≤ 1.5 * 1.4 * 2 ∧
      (e.agreement ≤ 2 → lo ≤ e.bpm ∧ e.bpm ≤ hi) ∧ e.bpm.isFinite = true ∧
      lo.val * (1 - 1 / 2 ^ 24) ^ (3 * (e.agreement - 1)) ≤ e.bpm.val ∧
      e.bpm.val ≤ hi.val * (1 + 1 / 2 ^ 24) ^ (3 * (e.agreement - 1))) ∧
    min 10 ac.length + min 10 cb.length ≤ ((merge M ac cb tol).map Est.agreement).sum ∧
    ((merge M ac cb tol).map Est.agreement).sum ≤ ac.length + min 10 cb.length ∧
    (merge M ac cb tol).Pairwise (fun a b => cmpEst a b ≠ .gt) := by
  by_cases hemp : ac = [] ∧ cb = []
  · obtain ⟨rfl, rfl⟩ := hemp
    simp [merge]
  -- the bounds are finite
  obtain ⟨c0, hc0⟩ : ∃ c : Cand, lo ≤ c.bpm ∧ c.bpm ≤ hi := by
    rw [not_and_or] at hemp
    rcases hemp with h | h
    · obtain ⟨c, hc⟩ := List.exists_mem_of_ne_nil _ h
      exact ⟨c, (hac c hc).1, (hac c hc).2.1⟩
    · obtain ⟨c, hc⟩ := List.exists_mem_of_ne_nil _ h
      exact ⟨c, (hcb c hc).1, (hcb c hc).2.1⟩
  have hlohi : lo ≤ hi := le_trans hc0.1 hc0.2
  have hlof : lo.isFinite = true := isFinite_of_between (by decide +kernel) (by decide +kernel) hlo (le_trans hlohi hhi)
  have hhif : hi.isFinite = true := isFinite_of_between (by decide +kernel) (by decide +kernel) (le_trans hlo hlohi) hhi
  obtain ⟨l, hl, rfl⟩ := isFinite_iff.1 hlof
  obtain ⟨h, hh, rfl⟩ := isFinite_iff.1 hhif
  have e1 : (1e-15 : F32) = fin (9444733 / 2 ^ 73) (by decide +kernel) := by decide +kernel
  have e2 : (1e15 : F32) = fin 999999986991104 (by decide +kernel) := by decide +kernel
  rw [e1, fin_le_fin] at hlo
  rw [e2, fin_le_fin] at hhi
  rw [fin_le_fin] at hlohi
  have hl60 : pow2 (-60) ≤ l := by rw [show pow2 (-60) = 1 / 2 ^ 60 by decide +kernel]; linarith
  have hh60 : h ≤ pow2 60 := by rw [show pow2 60 = 2 ^ 60 by decide +kernel]; linarith
  have hl0 : 0 < l := by have := pow2_pos (-60); linarith
  -- the corrected candidates
  unfold merge
  rw [if_neg hemp]
  dsimp only
  generalize M.exp2 (tol / 1200) = t
  have hA : ∀ c ∈ (ac.map (fun a => octaveDown t a (cb.take 3))).map (fun a => octaveUp t a (cb.take 3)),
      fin l hl ≤ c.bpm ∧ c.bpm ≤ fin h hh ∧ 0 ≤ c.conf := by
    intro c hc
    simp only [List.map_map, List.mem_map, Function.comp_apply] at hc
    obtain ⟨a, ha, rfl⟩ := hc
    have h1 := octaveDown_bpm t a (cb.take 3)
    have h2 := octaveUp_bpm t (octaveDown t a (cb.take 3)) (cb.take 3)
    rw [h2.1, h1.1]
    have hb : fin l hl ≤ (octaveDown t a (cb.take 3)).bpm ∧ (octaveDown t a (cb.take 3)).bpm ≤ fin h hh := by
      rcases h1.2 with e | ⟨c, hc, e⟩ <;> rw [e]
      · exact ⟨(hac a ha).1, (hac a ha).2.1⟩
      · have := hcb c (List.mem_of_mem_take hc); exact ⟨this.1, this.2.1⟩
    rcases h2.2 with e | ⟨c, hc, e⟩ <;> rw [e]
    · exact ⟨hb.1, hb.2, (hac a ha).2.2⟩
    · have := hcb c (List.mem_of_mem_take hc); exact ⟨this.1, this.2.1, (hac a ha).2.2⟩
  have hAlen : ((ac.map (fun a => octaveDown t a (cb.take 3))).map (fun a => octaveUp t a (cb.take 3))).length = ac.length := by
    simp
  generalize (ac.map (fun a => octaveDown t a (cb.take 3))).map (fun a => octaveUp t a (cb.take 3)) = ac' at hA hAlen
  generalize disagreement ac' cb = dis
  have hX : ∀ c ∈ addReasonable ac' (ac'.take 10), fin l hl ≤ c.bpm ∧ c.bpm ≤ fin h hh ∧ 0 ≤ c.conf := by
    intro c hc
    rcases mem_addReasonable hc with hc | hc
    · exact hA c (List.mem_of_mem_take hc)
    · exact hA c hc
  have hX1 : min 10 ac.length ≤ (addReasonable ac' (ac'.take 10)).length := by
    have := (prefix_addReasonable ac' (ac'.take 10)).length_le
    rw [List.length_take, hAlen] at this
    exact this
  have hX2 : (addReasonable ac' (ac'.take 10)).length ≤ ac.length := by
    have e : addReasonable ac' (ac'.take 10) = addReasonable (ac'.take 10 ++ ac'.drop 10) (ac'.take 10) := by
      rw [List.take_append_drop]
    rw [e, addReasonable_append (fun c hc => hc)]
    · have := addReasonable_length_le (ac'.drop 10) (ac'.take 10)
      rw [List.length_take, List.length_drop, hAlen] at this
      refine le_trans this ?_
      omega
    · intro c hc
      have := hA c (List.mem_of_mem_take hc)
      exact isFinite_of_between rfl rfl this.1 this.2.1
  generalize addReasonable ac' (ac'.take 10) = X at hX hX1 hX2
  have hL : ∀ c ∈ X ++ cb.take 10, fin l hl ≤ c.bpm ∧ c.bpm ≤ fin h hh ∧ 0 ≤ c.conf := by
    intro c hc
    rcases List.mem_append.1 hc with hc | hc
    · exact hX c hc
    · exact hcb c (List.mem_of_mem_take hc)
  have hLlen : (X ++ cb.take 10).length = X.length + min 10 cb.length := by simp
  have hLne : X ++ cb.take 10 ≠ [] := by
    intro hc
    have h0 := congrArg List.length hc
    rw [hLlen, List.length_nil] at h0
    apply hemp
    rw [← List.length_eq_zero_iff, ← List.length_eq_zero_iff]
    omega
  have hcounts := foldl_addGroup_counts (X ++ cb.take 10) []
  -- the groups
  have hG := foldl_addGroup_inv (P := fun g => 1 ≤ g.count ∧ 0 ≤ g.total ∧ 0 ≤ g.maxC ∧
      ∃ z hz, g.bpm = fin z hz ∧ (g.count ≤ 2 → l ≤ z ∧ z ≤ h) ∧
        l * (1 - uu) ^ (3 * (g.count - 1)) ≤ z ∧ z ≤ h * (1 + uu) ^ (3 * (g.count - 1)))
    (N := 2 ^ 20) (X ++ cb.take 10) [] (by simp at hcounts ⊢; omega) (by simp)
    (by
      intro c hc
      have h1 := hL c hc
      obtain ⟨z, hz, e, hz1, hz2⟩ := between_cases h1.1 h1.2.1
      exact ⟨_root_.le_refl 1, h1.2.2, h1.2.2, z, hz, e, fun _ => ⟨hz1, hz2⟩, by simpa using hz1, by simpa using hz2⟩)
    (by
      rintro c hc ⟨gb, gt, n, gm⟩ hn ⟨g1, g2, g3, v, hv, ev, g4, g5, g6⟩
      dsimp only at hn g1 g2 g3 ev g4 g5 g6 ⊢
      subst ev
      have h1 := hL c hc
      obtain ⟨w, hw, e, hw1, hw2⟩ := between_cases h1.1 h1.2.1
      rw [e]
      refine ⟨by omega, F32.add_nonneg g2 h1.2.2, F32.le_trans g3 (le_max_left (ne_nan_right g3)), ?_⟩
      have hb := pow_bounds (k := 3 * (n - 1)) (by omega)
      obtain ⟨z, hz, ez, hz1, hz2⟩ := mean_step (hv := hv) (hw := hw) g1 (by omega) hl60 hh60 g5 g6 hw1 hw2 hb.1 hb.2
      have hk : 3 * (n - 1) + 3 = 3 * (n + 1 - 1) := by omega
      rw [hk] at hz1 hz2
      refine ⟨z, hz, ez, ?_, hz1, hz2⟩
      intro hn2
      have hn1 : n = 1 := by omega
      subst hn1
      have g4' := g4 (by omega)
      have habs : ∀ x, l ≤ x → x ≤ h → |x| ≤ pow2 60 := by
        intro x hx1 hx2
        rw [abs_le]; have := pow2_pos 60; constructor <;> linarith
      obtain ⟨z', hz', ez', hz1', hz2'⟩ := mean_two (hv := hv) (hw := hw) hl hh (habs l (_root_.le_refl _) hlohi)
        (habs h hlohi (_root_.le_refl _)) g4'.1 g4'.2 hw1 hw2
      rw [ez'] at ez
      injection ez with ez
      subst ez
      exact ⟨hz1', hz2'⟩)
  rw [List.map_nil, List.sum_nil, Nat.zero_add] at hcounts
  have hGne : (X ++ cb.take 10).foldl (fun gs c => addGroup c gs) [] ≠ [] := by
    intro hc
    rw [hc, List.map_nil, List.sum_nil] at hcounts
    exact hLne (List.length_eq_zero_iff.1 hcounts.symm)
  have hcle : ∀ g ∈ (X ++ cb.take 10).foldl (fun gs c => addGroup c gs) [], g.count ≤ 2 ^ 24 := by
    intro g hg
    have := count_le_sum hg
    omega
  generalize (X ++ cb.take 10).foldl (fun gs c => addGroup c gs) [] = G at hcounts hG hGne hcle
  -- the estimates
  set es := (G.map (estOf dis)).map (boost (X.take 5) ((cb.take 10).take 5)) with hes
  have hmem : ∀ e ∈ safety es, 1 ≤ e.agreement ∧ 0 ≤ e.conf ∧ e.conf ≤ 1.5 * 1.4 * 2 ∧
      (e.agreement ≤ 2 → fin l hl ≤ e.bpm ∧ e.bpm ≤ fin h hh) ∧ e.bpm.isFinite = true ∧
      (fin l hl).val * (1 - 1 / 2 ^ 24) ^ (3 * (e.agreement - 1)) ≤ e.bpm.val ∧
      e.bpm.val ≤ (fin h hh).val * (1 + 1 / 2 ^ 24) ^ (3 * (e.agreement - 1)) := by
    have hbase : ∀ e ∈ es, 1 ≤ e.agreement ∧ (0 ≤ e.conf ∧ e.conf ≤ 1.5 * 1.4) ∧
        (e.agreement ≤ 2 → fin l hl ≤ e.bpm ∧ e.bpm ≤ fin h hh) ∧ e.bpm.isFinite = true ∧
        (fin l hl).val * (1 - 1 / 2 ^ 24) ^ (3 * (e.agreement - 1)) ≤ e.bpm.val ∧
        e.bpm.val ≤ (fin h hh).val * (1 + 1 / 2 ^ 24) ^ (3 * (e.agreement - 1)) := by
      intro e he
      rw [hes] at he
      simp only [List.map_map, List.mem_map, Function.comp_apply] at he
      obtain ⟨g, hg, rfl⟩ := he
      obtain ⟨g1, g2, g3, z, hz, ez, g4, g5, g6⟩ := hG g hg
      have hc := estOf_conf (d := dis) g2 g3 (hcle g hg)
      refine ⟨g1, boost_conf hc.1 hc.2, ?_, ?_, ?_, ?_⟩
      · intro h2
        change fin l hl ≤ g.bpm ∧ g.bpm ≤ fin h hh
        rw [ez, fin_le_fin, fin_le_fin]
        exact g4 h2
      · change g.bpm.isFinite = true
        rw [ez]; rfl
      · change _ ≤ g.bpm.val
        rw [ez]; exact g5
      · change g.bpm.val ≤ _
        rw [ez]; exact g6
    intro e he
    rcases mem_safety he with he | ⟨y, hy, rfl⟩
    · obtain ⟨b1, b2, b3⟩ := hbase e he
      exact ⟨b1, b2.1, F32.le_trans b2.2 (by decide +kernel), b3⟩
    · obtain ⟨b1, b2, b3⟩ := hbase y hy
      have := scale_bound (k := 2) b2.1 b2.2 (by decide +kernel) (by decide +kernel) (by decide +kernel)
      exact ⟨b1, this.1, this.2, b3⟩
  have hperm : (rsort (fun a b => cmpEst a b != .gt) (safety es)).Perm (safety es) := rsort_perm _
  have hsum : ((rsort (fun a b => cmpEst a b != .gt) (safety es)).map Est.agreement).sum = X.length + min 10 cb.length := by
    rw [(hperm.map Est.agreement).sum_eq, safety_map Est.agreement (fun _ _ => rfl), hes, List.map_map, List.map_map,
      show (Est.agreement ∘ boost (X.take 5) ((cb.take 10).take 5)) ∘ estOf dis = Group.count from rfl, hcounts, hLlen]
  refine ⟨?_, fun e he => hmem e (hperm.mem_iff.1 he), by omega, by omega, ?_⟩
  · refine iff_of_false ?_ hemp
    intro hc
    rw [hc, List.map_nil, List.sum_nil] at hsum
    exact hLne (List.length_eq_zero_iff.1 (by omega))
  · have hnn : ∀ e ∈ safety es, e.conf ≠ nan := fun e he => ne_nan_right (hmem e he).2.1
    have := rsort_pairwise (le := fun a b => cmpEst a b != .gt) (l := safety es)
      (fun a ha b hb => by
        rw [bne_iff_ne, bne_iff_ne, C18_total_preorder.swap a b (hnn a ha) (hnn b hb)]
        cases cmpEst a b <;> simp)
      (fun a ha b hb c hc h1 h2 => by
        rw [bne_iff_ne] at *
        exact C18_total_preorder.trans a b c (hnn a ha) (hnn b hb) (hnn c hc) h1 h2)
    exact this.imp (fun h => by rwa [bne_iff_ne] at h)

/-- non-vacuity of `C19_merge_partial` -/
example : (∀ c ∈ [Cand.mk 120 0.9, Cand.mk 75 0.5], (50 : F32) ≤ c.bpm ∧ c.bpm ≤ (200 : F32) ∧ 0 ≤ c.conf) ∧
    (merge Libm.demo [⟨120, 0.9⟩, ⟨75, 0.5⟩] [⟨119, 0.8⟩] 50).map (fun e => (e.bpm, e.agreement)) =
      [(119.5, 2), (75, 1)] := by decide +kernel

theorem merge_no_comb (M N : Libm) (ac : List Cand) (tol : F32) : merge M ac [] tol = merge N ac [] tol := by
  unfold merge
  simp only [List.take_nil, octaveDown, octaveUp]

/-- **C19 violated** as an exact span: three equal candidates of `13345386/2^17` (101.8172...) BPM merge to
an estimate one ulp above all of them. -/
theorem C19_violated : ∃ x : F32, ∀ M : Libm,
    ∃ e ∈ merge M [⟨x, 0.5⟩, ⟨x, 0.5⟩, ⟨x, 0.5⟩] [] 50, x < e.bpm := by
  refine ⟨rnd (13345386 / 2 ^ 17), fun M => ?_⟩
  rw [merge_no_comb M Libm.demo]
  decide +kernel

/-- **C54 (partial)**: the reported agreement of a merged estimate never exceeds the number of
candidates, hence is at most 2 (the number of methods) when each method contributes one candidate.  What
is missing is "never more than the number of methods" in general, which is false (`C54_violated`). -/
theorem C54_agreement_partial (M : Libm) (ac cb : List Cand) (tol lo hi : F32)
    (hac : ∀ c ∈ ac, lo ≤ c.bpm ∧ c.bpm ≤ hi ∧ 0 ≤ c.conf) (hcb : ∀ c ∈ cb, lo ≤ c.bpm ∧ c.bpm ≤ hi ∧ 0 ≤ c.conf)
    (hlo : 1e-15 ≤ lo) (hhi : hi ≤ 1e15) (hlen : ac.length + cb.length ≤ 2 ^ 20) {e : Est}
    (he : e ∈ merge M ac cb tol) : e.agreement ≤ ac.length + min 10 cb.length := by
  have h := (C19_merge_partial M ac cb tol lo hi hac hcb hlo hhi hlen).2.2.2.1
  exact _root_.le_trans (List.single_le_sum (by simp) _ (List.mem_map.2 ⟨e, he, rfl⟩)) h

/-- non-vacuity of `C54_agreement_partial` -/
example : (merge Libm.demo [⟨120, 0.9⟩] [⟨119, 0.8⟩] 50).map Est.agreement = [2] := by decide +kernel

/-- **C54 violated**: three neighbouring autocorrelation candidates and no comb-filter candidate give a
"method agreement" of 3, and a lone candidate pair can reach a confidence above 1. -/
theorem C54_violated :
    (∀ M : Libm, ∃ e ∈ merge M [⟨120, 0.5⟩, ⟨121, 0.5⟩, ⟨119, 0.5⟩] [] 50, e.agreement = 3) ∧
    (∃ e ∈ merge Libm.demo [⟨120, 1⟩] [⟨120, 1⟩] 50, 2 < e.conf) := by
  constructor
  · intro M
    rw [merge_no_comb M Libm.demo]
    decide +kernel
  · decide +kernel

end Verif.Props
