/-
Property C20 (legacy BPM guardrails): src/features/period/mod.rs.
-/
import Verif.Model.Period
import Verif.F32.More

namespace Verif.Props
open Verif Verif.Period F32

/-- **C20 (partial)**: unless both preferred bounds are NaN, the sanitised guardrails are ordered and nested.
Always, multipliers are finite and non-negative, a finite BPM is classified by the sanitised
ranges, a non-finite one gets weight 0, and the weight is finite and non-negative.
What is missing is the ordering claim when both preferred bounds are NaN, which is false
(`C20_violated`). -/
theorem C20_guardrails_partial (g : Guard) :
    (¬ (g.prefMin = nan ∧ g.prefMax = nan) →
      g.clampSane.softMin ≤ g.clampSane.prefMin ∧ g.clampSane.prefMin ≤ g.clampSane.prefMax ∧
      g.clampSane.prefMax ≤ g.clampSane.softMax) ∧
    (∀ m ∈ [g.clampSane.mulPref, g.clampSane.mulSoft, g.clampSane.mulExt], m.isFinite = true ∧ 0 ≤ m) ∧
    (∀ b : F32, b.isFinite = false → g.clampSane.mulFor b = 0) ∧
    (∀ b : F32, (g.clampSane.mulFor b).isFinite = true ∧ 0 ≤ g.clampSane.mulFor b) ∧
    (∀ b : F32, b.isFinite = true →
      (g.clampSane.prefMin ≤ b ∧ b ≤ g.clampSane.prefMax → g.clampSane.mulFor b = g.clampSane.mulPref) ∧
      (¬ (g.clampSane.prefMin ≤ b ∧ b ≤ g.clampSane.prefMax) → g.clampSane.softMin ≤ b ∧ b ≤ g.clampSane.softMax →
        g.clampSane.mulFor b = g.clampSane.mulSoft) ∧
      (¬ (g.clampSane.prefMin ≤ b ∧ b ≤ g.clampSane.prefMax) → ¬ (g.clampSane.softMin ≤ b ∧ b ≤ g.clampSane.softMax) →
        g.clampSane.mulFor b = g.clampSane.mulExt)) := by
  have hmul : ∀ m : F32, (saneMul m).isFinite = true ∧ 0 ≤ saneMul m := by
    intro m
    unfold saneMul
    split_ifs with h
    · refine ⟨?_, le_max_right (by decide +kernel)⟩
      rcases max_eq_left_or_right m 0 with e | e <;> rw [e]
      · exact h
      · decide +kernel
    · exact ⟨by decide +kernel, by decide +kernel⟩
  have hall : ∀ m ∈ [g.clampSane.mulPref, g.clampSane.mulSoft, g.clampSane.mulExt], m.isFinite = true ∧ 0 ≤ m := by
    intro m hm
    simp only [Guard.clampSane, List.mem_cons, List.not_mem_nil, or_false] at hm
    rcases hm with rfl | rfl | rfl <;> exact hmul _
  refine ⟨?_, hall, ?_, ?_, ?_⟩
  · intro hn
    have hp : F32.min g.prefMin g.prefMax ≤ F32.max g.prefMin g.prefMax := by
      by_cases h1 : g.prefMin = nan
      · have h2 : g.prefMax ≠ nan := fun h => hn ⟨h1, h⟩
        exact le_trans (min_le_right h2) (le_max_right h2)
      · exact le_trans (min_le_left h1) (le_max_left h1)
    exact ⟨min_le_right (ne_nan_left hp), hp, le_max_right (ne_nan_right hp)⟩
  · intro b hb
    unfold Guard.mulFor
    rw [if_pos hb]
  · intro b
    unfold Guard.mulFor
    split_ifs
    · exact ⟨by decide +kernel, by decide +kernel⟩
    · exact hall _ (by simp)
    · exact hall _ (by simp)
    · exact hall _ (by simp)
  · intro b hb
    unfold Guard.mulFor
    rw [if_neg (by simp [hb])]
    refine ⟨fun h => if_pos h, fun h1 h2 => by rw [if_neg h1, if_pos h2], fun h1 h2 => by rw [if_neg h1, if_neg h2]⟩

/-- non-vacuity: inverted preferred range, NaN soft bound, negative and infinite multipliers -/
example : ¬ ((Guard.mk 180 75 nan 120 (-1) (inf false) 2).prefMin = nan ∧
      (Guard.mk 180 75 nan 120 (-1) (inf false) 2).prefMax = nan) ∧
    (Guard.mk 180 75 nan 120 (-1) (inf false) 2).clampSane.prefMin = 75 ∧
    (Guard.mk 180 75 nan 120 1 0.5 2).clampSane.mulFor 100 = 1 := by decide +kernel

/-- **C20 violated** for two NaN preferred bounds: the sanitised range is not ordered. -/
theorem C20_violated : ∃ g : Guard, ¬ g.clampSane.prefMin ≤ g.clampSane.prefMax :=
  ⟨⟨nan, nan, 60, 180, 1, 1, 1⟩, by decide +kernel⟩

end Verif.Props
