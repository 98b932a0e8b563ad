/-
Property C55 (the legacy BPM estimator end to end): src/features/period/mod.rs.
-/
import Verif.Props.Estimators
import Verif.Props.Merge
import Verif.Props.Guardrails

namespace Verif.Props
open Verif Verif.Period F32

theorem applyGuard_mem {g : Option Guard} {es : List Est} {e : Est} (h : e ∈ applyGuard (g.map Guard.clampSane) es) :
    ∃ y ∈ es, e.bpm = y.bpm ∧ e.agreement = y.agreement ∧
      (e.conf = y.conf ∨ ∃ m : F32, m.isFinite = true ∧ 0 ≤ m ∧ e.conf = y.conf * m) := by
  cases g with
  | none => exact ⟨e, h, rfl, rfl, .inl rfl⟩
  | some g =>
    simp only [Option.map_some, applyGuard] at h
    rw [(sortDesc_perm _).mem_iff] at h
    obtain ⟨y, hy, rfl⟩ := List.mem_map.1 h
    have := (C20_guardrails_partial g).2.2.2.1 y.bpm
    exact ⟨y, hy, rfl, rfl, .inr ⟨_, this.1, this.2, rfl⟩⟩

theorem applyGuard_length (g : Option Guard) (es : List Est) : (applyGuard g es).length = es.length := by
  cases g with
  | none => rfl
  | some g =>
    simp only [applyGuard]
    rw [(sortDesc_perm _).length_eq, List.length_map]

theorem preferAutocorr_perm (t : Option F32) (es : List Est) : (preferAutocorr t es).Perm es := by
  unfold preferAutocorr
  split
  · exact List.Perm.refl _
  · split
    · exact List.Perm.refl _
    · rename_i i _
      split
      · exact List.Perm.refl _
      · rename_i e he
        obtain ⟨hi, rfl⟩ := List.getElem?_eq_some_iff.1 he
        exact List.getElem_cons_eraseIdx_perm hi

/-- **C55.** Whenever the legacy estimator succeeds, it reports no tempo exactly when neither the
autocorrelation nor the comb filter found a candidate; otherwise the reported BPM is within the requested range (exactly
up to agreement 2, up to rounding beyond), its confidence is non-negative and its agreement positive (and bounded by the number of candidates);
with or without guardrails. -/
theorem C55_legacy_estimate (M : Libm) (ifft : List F32 → ℕ → F32) (fuel : ℕ) (onsets : List ℕ) (sr hop : ℕ)
    (minB maxB res : F32) (guard : Option Guard) (hmin : 1e-15 ≤ minB) (hmax : maxB + 1e-10 ≤ 1e15)
    (hlen : ∀ o ∈ onsets, o / hop + 1 < 2 ^ 31) (ac cb : List Cand) (hsmall : ac.length + cb.length ≤ 2 ^ 20)
    (hac : estAutocorr ifft onsets sr hop minB maxB = .ok ac) (hcb : estComb fuel onsets sr minB maxB res = .ok cb) :
    ∃ r, estimateBpm M ifft fuel onsets sr hop minB maxB res guard = .ok r ∧
      (r = none ↔ ac = [] ∧ cb = []) ∧
      (∀ e, r = some e → 1 ≤ e.agreement ∧ e.agreement ≤ ac.length + 10 ∧ 0 ≤ e.conf ∧
        (e.agreement ≤ 2 → minB ≤ e.bpm ∧ e.bpm ≤ maxB + 1e-10) ∧
        minB.val * (1 - 1 / 2 ^ 24) ^ (3 * (e.agreement - 1)) ≤ e.bpm.val ∧
        e.bpm.val ≤ (maxB + 1e-10).val * (1 + 1 / 2 ^ 24) ^ (3 * (e.agreement - 1))) := by
  have hmaxn : maxB ≠ nan := by
    rintro rfl
    exact ne_nan_left hmax rfl
  have hA : ∀ c ∈ ac, minB ≤ c.bpm ∧ c.bpm ≤ maxB + 1e-10 ∧ 0 ≤ c.conf := by
    have h := C15_autocorrelation ifft onsets sr hop minB maxB hlen
    by_cases h1 : (onsets = [] ∨ sr = 0 ∨ hop = 0 ∨ minB ≤ 0 ∨ maxB ≤ 0 ∨ maxB ≤ minB)
    · rw [h.1 h1] at hac; exact absurd hac (by simp [R.err])
    by_cases h2 : (2 ≤ onsets.length ∧ ∀ o ∈ onsets, o / hop = 0)
    · rw [(h.2 h1).1 h2] at hac; exact absurd hac (by simp [R.err])
    obtain ⟨cands, sig, e, he, _, _, hc, _⟩ := (h.2 h1).2 h2
    rw [he] at hac
    obtain rfl := Except.ok.inj hac
    intro c hc'
    obtain ⟨c1, c2, c3, _⟩ := hc c hc'
    push Not at h1
    have hm0 : 0 ≤ maxB := le_of_lt (lt_of_not_le zero_ne_nan hmaxn h1.2.2.2.2.1)
    exact ⟨c1, F32.le_trans c2 (le_add_right hm0 (by decide +kernel)), c3⟩
  have hB : ∀ c ∈ cb, minB ≤ c.bpm ∧ c.bpm ≤ maxB + 1e-10 ∧ 0 ≤ c.conf := by
    intro c hc
    obtain ⟨c1, c2, c3, _⟩ := (C17_comb fuel onsets sr minB maxB res cb hcb).1 c hc
    exact ⟨c1, c2, F32.le_trans (by decide +kernel) c3⟩
  obtain ⟨m1, m2, _, m4, _⟩ := C19_merge_partial M ac cb 50 minB (maxB + 1e-10) hA hB hmin hmax hsmall
  unfold estimateBpm
  rw [hac, hcb]
  simp only [R.ok_bind]
  generalize Option.map Cand.bpm _ = top
  refine ⟨_, rfl, ?_, ?_⟩
  · rw [← m1, List.head?_eq_none_iff, ← List.length_eq_zero_iff, (preferAutocorr_perm _ _).length_eq, applyGuard_length,
      List.length_eq_zero_iff]
  · intro e he
    have he' := (preferAutocorr_perm _ _).mem_iff.1 (List.mem_of_mem_head? he)
    obtain ⟨y, hy, e1, e2, e3⟩ := applyGuard_mem he'
    obtain ⟨y1, y2, y3, y4, y5, y6, y7⟩ := m2 y hy
    rw [e1, e2]
    refine ⟨y1, ?_, ?_, y4, y6, y7⟩
    · have : y.agreement ≤ ((merge M ac cb 50).map Est.agreement).sum := List.single_le_sum (by simp) _ (List.mem_map.2 ⟨y, hy, rfl⟩)
      omega
    rcases e3 with e3 | ⟨m, hm1, hm2, e3⟩ <;> rw [e3]
    · exact y2
    · have hyf : y.conf.isFinite = true := isFinite_of_between (lo := 0) (by decide +kernel) (by decide +kernel) y2 y3
      exact F32.mul_nonneg y2 hm2 (mul_fin_ne_nan hyf hm1)

/-- non-vacuity: a 120 BPM click train -/
example : (estimateBpm Libm.demo (fun _ k => if k % 4 = 0 then 8 else 0) 200 [0, 4096, 8192, 12288] 8192 1024 100 150 10
      (some ⟨75, 150, 60, 180, 1, 0.5, 0.1⟩)).map (Option.map (fun e => (e.bpm, e.agreement))) = .ok (some (120, 1)) := by
  decide +kernel

end Verif.Props
