/-
Lemmas on peak picking (Model/Period.lean, find_peaks).
-/
import Verif.Model.Period
import Verif.Lemmas.Consensus

namespace Verif.Period
open Verif Verif.F32

theorem at'_getElem {v : List F32} {i : ℕ} (h : i < v.length) : at' v i = v[i] := by simp [at', h]

theorem distI32_small {a b : ℕ} (ha : a < 2 ^ 31) (hb : b < 2 ^ 31) :
    distI32 a b = .ok |(a : ℤ) - b| := by
  unfold distI32
  rw [Consensus.asI32_small ha, Consensus.asI32_small hb]
  dsimp only
  rw [if_neg (by omega)]

/-- distance of two indices -/
def gap (a b : ℕ) : ℕ := if a ≤ b then b - a else a - b

theorem abs_lt_gap {a b d : ℕ} : |(a : ℤ) - b| < (d : ℤ) ↔ gap a b < d := by
  unfold gap
  rw [abs_lt]
  split <;> omega

theorem tooClose_small {d i : ℕ} (hd : d < 2 ^ 31) (hi : i < 2 ^ 31) (kept : List (ℕ × F32))
    (hk : ∀ p ∈ kept, p.1 < 2 ^ 31) :
    ∃ b, tooClose d i kept = .ok b ∧ (b = true ↔ ∃ p ∈ kept, gap i p.1 < d) := by
  induction kept with
  | nil => exact ⟨false, rfl, by simp⟩
  | cons p ps ih =>
    obtain ⟨b, e, hb⟩ := ih (fun q hq => hk q (List.mem_cons_of_mem _ hq))
    have e1 := distI32_small hi (hk p List.mem_cons_self)
    have e2 : tooClose d i (p :: ps) =
        (if |(i : ℤ) - p.1| < (d : ℤ) then .ok true else tooClose d i ps) := by
      show (distI32 i p.1 >>= fun x => if x < asI32 d then pure true else tooClose d i ps) = _
      rw [e1, Consensus.asI32_small hd]
      rfl
    rw [e2]
    by_cases h : |(i : ℤ) - p.1| < (d : ℤ)
    · exact ⟨true, if_pos h, by
        simp only [true_iff]; exact ⟨p, List.mem_cons_self, abs_lt_gap.1 h⟩⟩
    · rw [if_neg h, e]
      refine ⟨b, rfl, hb.trans ⟨?_, ?_⟩⟩
      · rintro ⟨q, hq, hg⟩; exact ⟨q, List.mem_cons_of_mem _ hq, hg⟩
      · rintro ⟨q, hq, hg⟩
        rcases List.mem_cons.1 hq with rfl | hq
        · exact absurd (abs_lt_gap.2 hg) h
        · exact ⟨q, hq, hg⟩

theorem greedy_spec {d : ℕ} (hd : d < 2 ^ 31) : ∀ (ps kept : List (ℕ × F32)),
    (∀ p ∈ ps, p.1 < 2 ^ 31) → (∀ p ∈ kept, p.1 < 2 ^ 31) →
    (kept ++ ps).Pairwise (fun a b => b.2 ≤ a.2) → kept.Pairwise (fun a b => d ≤ gap a.1 b.1) →
    ∃ out, greedy d ps kept = .ok out ∧ kept <+: out ∧ out.Sublist (kept ++ ps) ∧
      out.Pairwise (fun a b => d ≤ gap a.1 b.1) ∧
      ∀ p ∈ ps, p ∈ out ∨ ∃ q ∈ out, gap p.1 q.1 < d ∧ p.2 ≤ q.2 := by
  intro ps
  induction ps with
  | nil =>
    intro kept _ _ _ hk
    exact ⟨kept, rfl, List.prefix_refl _, by simp, hk, by simp⟩
  | cons p ps ih =>
    intro kept hps hks hso hk
    obtain ⟨b, eb, hb⟩ := tooClose_small hd (hps p (by simp)) kept hks
    have eg : greedy d (p :: ps) kept = if b = true then greedy d ps kept else greedy d ps (kept ++ [p]) := by
      show (tooClose d p.1 kept >>= fun x => if x = true then greedy d ps kept else greedy d ps (kept ++ [p])) = _
      rw [eb]; rfl
    rw [eg]
    by_cases h : ∃ q ∈ kept, gap p.1 q.1 < d
    · rw [if_pos (hb.2 h)]
      have hsub : (kept ++ ps).Sublist (kept ++ p :: ps) :=
        (List.Sublist.refl kept).append (List.sublist_cons_self p ps)
      obtain ⟨out, e, h1, h2, h3, h4⟩ := ih kept (fun q hq => hps q (by simp [hq])) hks (hso.sublist hsub) hk
      refine ⟨out, e, h1, h2.trans hsub, h3, ?_⟩
      intro x hx
      rcases List.mem_cons.1 hx with rfl | hx
      · right
        obtain ⟨q, hq, hg⟩ := h
        exact ⟨q, h1.subset hq, hg, (List.pairwise_append.1 hso).2.2 q hq x (by simp)⟩
      · exact h4 x hx
    · rw [if_neg (mt hb.1 h)]
      push Not at h
      have happ : (kept ++ [p]) ++ ps = kept ++ p :: ps := by simp
      obtain ⟨out, e, h1, h2, h3, h4⟩ := ih (kept ++ [p]) (fun q hq => hps q (by simp [hq]))
        (by
          intro q hq
          rcases List.mem_append.1 hq with hq | hq
          · exact hks q hq
          · rw [List.mem_singleton.1 hq]; exact hps p (by simp))
        (by rw [happ]; exact hso)
        (by
          rw [List.pairwise_append]
          refine ⟨hk, by simp, ?_⟩
          intro q hq r hr
          rw [List.mem_singleton.1 hr]
          have := h q hq
          have e : gap q.1 p.1 = gap p.1 q.1 := by unfold gap; split_ifs <;> omega
          rw [e]; exact this)
      refine ⟨out, e, (List.prefix_append kept [p]).trans h1, by rw [← happ]; exact h2, h3, ?_⟩
      intro x hx
      rcases List.mem_cons.1 hx with rfl | hx
      · left; exact h1.subset (by simp)
      · exact h4 x hx

theorem mem_rawPeaks {s : List F32} {thr : F32} (h : 3 ≤ s.length) {p : ℕ × F32} :
    p ∈ rawPeaks s thr ↔ p.1 < s.length ∧ p.2 = at' s p.1 ∧ (0 < p.1 → at' s (p.1 - 1) < p.2) ∧
      (p.1 + 1 < s.length → at' s (p.1 + 1) < p.2) ∧ thr ≤ p.2 := by
  unfold rawPeaks
  dsimp only
  rw [List.mem_append, List.mem_append, List.mem_map]
  simp only [List.mem_filter, List.mem_range'_1, Bool.and_eq_true, decide_eq_true_eq]
  obtain ⟨i, v⟩ := p
  constructor
  · rintro ((⟨j, ⟨hj, ⟨h1, h2⟩, h3⟩, he⟩ | hx) | hx)
    · simp only [Prod.mk.injEq] at he
      obtain ⟨rfl, rfl⟩ := he
      refine ⟨?_, rfl, fun _ => h1, fun _ => h2, h3⟩
      show j < _
      omega
    · split_ifs at hx with hc
      · simp only [List.mem_singleton, Prod.mk.injEq] at hx
        obtain ⟨rfl, rfl⟩ := hx
        exact ⟨by show 0 < _; omega, rfl, fun h' => absurd h' (by simp), fun _ => hc.1, hc.2⟩
      · simp at hx
    · split_ifs at hx with hc
      · simp only [List.mem_singleton, Prod.mk.injEq] at hx
        obtain ⟨rfl, rfl⟩ := hx
        refine ⟨by show s.length - 1 < _; omega, rfl, fun _ => hc.1, fun h' => ?_, hc.2⟩
        exfalso
        have : s.length - 1 + 1 < s.length := h'
        omega
      · simp at hx
  · rintro ⟨h1, h2, h3, h4, h5⟩
    dsimp only at *
    subst h2
    by_cases h0 : i = 0
    · subst h0
      left; right
      rw [if_pos ⟨h4 (by omega), h5⟩]; simp
    · by_cases hl : i = s.length - 1
      · right
        subst hl
        rw [if_pos ⟨h3 (by omega), h5⟩]; simp
      · left; left
        exact ⟨i, ⟨⟨by omega, by omega⟩, ⟨h3 (by omega), h4 (by omega)⟩, h5⟩, rfl⟩

theorem rawPeaks_nodup {s : List F32} {thr : F32} (h : 3 ≤ s.length) :
    ((rawPeaks s thr).map Prod.fst).Nodup := by
  unfold rawPeaks
  dsimp only
  rw [List.map_append, List.map_append, List.nodup_append, List.nodup_append]
  have hi : ∀ x ∈ List.map Prod.fst (List.map (fun i => (i, at' s i)) ((List.range' 1 (s.length - 1 - 1)).filter
      (fun i => decide (at' s (i - 1) < at' s i) && decide (at' s (i + 1) < at' s i) && decide (thr ≤ at' s i)))),
      0 < x ∧ x < s.length - 1 := by
    intro x hx
    simp only [List.map_map, List.mem_map, List.mem_filter, List.mem_range'_1, Function.comp] at hx
    obtain ⟨a, ⟨ha, _⟩, rfl⟩ := hx
    omega
  have h0 : ∀ x ∈ List.map Prod.fst (if at' s 1 < at' s 0 ∧ thr ≤ at' s 0 then [(0, at' s 0)] else []), x = 0 := by
    intro x hx; split_ifs at hx <;> simp at hx; exact hx
  have hl : ∀ x ∈ List.map Prod.fst (if at' s (s.length - 1 - 1) < at' s (s.length - 1) ∧ thr ≤ at' s (s.length - 1)
      then [(s.length - 1, at' s (s.length - 1))] else []), x = s.length - 1 := by
    intro x hx; split_ifs at hx <;> simp at hx; exact hx
  refine ⟨⟨?_, ?_, ?_⟩, ?_, ?_⟩
  · rw [List.map_map]
    show (List.map (fun i => i) _).Nodup
    rw [List.map_id']
    exact List.Nodup.filter _ List.nodup_range'
  · split_ifs <;> simp
  · intro a ha b hb
    have := hi a ha; have := h0 b hb; omega
  · split_ifs <;> simp
  · intro a ha b hb
    have hb' := hl b hb
    rcases List.mem_append.1 ha with ha | ha
    · have := hi a ha; omega
    · have := h0 a ha; omega

theorem rawPeaks_ne_nan {s : List F32} {thr : F32} (h : 3 ≤ s.length) {p : ℕ × F32} (hp : p ∈ rawPeaks s thr) :
    p.2 ≠ nan := ne_nan_right ((mem_rawPeaks h).1 hp).2.2.2.2

end Verif.Period
