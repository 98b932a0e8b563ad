/-
Tempogram estimator (C21, C22, C75): src/features/period/tempogram.rs, candidate generation, scoring and selection.
-/
import Verif.Props.TempoScan

namespace Verif.Props
open Verif F32 Tempogram

/-! ### Specification -/

/-- inside the configured range -/
def InBpm (p : Params) (b : F32) : Prop := p.minB ≤ b ∧ b ≤ p.maxB

/-- at least 0.75 BPM apart -/
def Apart (a b : F32) : Prop := ¬ (a - b).abs < 0.75

/-- finite, between 0 and a bound -/
def Bd (x : F32) (A : ℚ) : Prop := ∃ v hv, x = fin v hv ∧ 0 ≤ v ∧ v ≤ A

/-! ### Bounds -/

theorem bd_mul {x y : F32} {A B C : ℚ} (hx : Bd x A) (hy : Bd y B) (h : A * B ≤ C) (hC : OnGrid C ∧ |C| < pow2 128) :
    Bd (x * y) C := by
  obtain ⟨v, hv, rfl, v0, v1⟩ := hx
  obtain ⟨w, hw, rfl, w0, w1⟩ := hy
  rw [mul_fin]
  have e : v * w ≤ C := le_trans (mul_le_mul v1 w1 w0 (le_trans v0 v1)) h
  obtain ⟨u, hu, e, u0, u1⟩ := between_cases (fin_le_rnd (hv := grid_zero) (show (0 : ℚ) ≤ v * w by positivity))
    (rnd_le_fin (hv := hC) e)
  exact ⟨u, hu, e, u0, u1⟩

theorem bd_add {x y : F32} {A B C : ℚ} (hx : Bd x A) (hy : Bd y B) (h : A + B ≤ C) (hC : OnGrid C ∧ |C| < pow2 128) :
    Bd (x + y) C := by
  obtain ⟨v, hv, rfl, v0, v1⟩ := hx
  obtain ⟨w, hw, rfl, w0, w1⟩ := hy
  rw [add_fin]
  obtain ⟨u, hu, e, u0, u1⟩ := between_cases (fin_le_rnd (hv := grid_zero) (show (0 : ℚ) ≤ v + w by positivity))
    (rnd_le_fin (hv := hC) (show v + w ≤ C by linarith))
  exact ⟨u, hu, e, u0, u1⟩

theorem bd_of {x : F32} {A : ℚ} {hA} (h0 : 0 ≤ x) (h1 : x ≤ fin A hA) : Bd x A := by
  rw [zero_def] at h0
  obtain ⟨u, hu, e, u0, u1⟩ := between_cases h0 h1
  exact ⟨u, hu, e, u0, u1⟩

theorem bd_ne_nan {x : F32} {A : ℚ} (h : Bd x A) : x ≠ nan := by
  obtain ⟨v, hv, rfl, -⟩ := h
  simp

theorem bd_unit {x : F32} (h : InUnit x) : Bd x 1 := bd_of h.1 (one_def ▸ h.2)

/-! ### De-duplication -/

theorem rnd_neg (q : ℚ) : rnd (-q) = -rnd q := by
  have hp := pow2_pos 128
  have hq := rndQ_neg q
  unfold rnd
  by_cases h1 : pow2 128 ≤ rndQ q
  · rw [dif_neg (by rw [hq]; linarith), dif_pos (by rw [hq]; linarith), dif_pos h1]; rfl
  · by_cases h2 : rndQ q ≤ -pow2 128
    · rw [dif_pos (by rw [hq]; linarith), dif_neg h1, dif_pos h2]; rfl
    · rw [dif_neg (by rw [hq]; linarith), dif_neg (by rw [hq]; linarith), dif_neg h1, dif_neg h2, neg_fin]
      congr 1

theorem abs_neg' (x : F32) : (-x).abs = x.abs := by
  rcases x with _ | (_ | _) | ⟨v, hv⟩ <;> try rfl
  rw [neg_fin, abs_fin, abs_fin]
  congr 1
  exact abs_neg v

theorem abs_sub_comm' (a b : F32) : (a - b).abs = (b - a).abs := by
  rcases a with _ | (_ | _) | ⟨v, hv⟩ <;> rcases b with _ | (_ | _) | ⟨w, hw⟩ <;> try rfl
  rw [sub_fin, sub_fin, show v - w = -(w - v) by ring, rnd_neg, abs_neg']

theorem abs_of_nonneg' {x : F32} (h : 0 ≤ x) : x.abs = x := by
  rcases nonneg_cases h with rfl | ⟨v, hv, rfl, v0⟩
  · rfl
  · rw [abs_fin]; congr 1; exact abs_of_nonneg v0

theorem apart_comm {a b : F32} : Apart a b ↔ Apart b a := by unfold Apart; rw [abs_sub_comm']

theorem not_apart_self {a : F32} (h : a.isFinite = true) : ¬ Apart a a := by
  obtain ⟨v, hv, rfl⟩ := isFinite_iff.1 h
  unfold Apart
  rw [sub_fin, sub_self, rnd_zero]
  decide +kernel

/-- moving further away keeps the distance -/
theorem apart_far {a b c : F32} (hb : b.isFinite = true) (hc : c.isFinite = true) (ha : a.isFinite = true)
    (h1 : a ≤ b) (h2 : b ≤ c) (h : Apart b c) : Apart a c := by
  obtain ⟨u, hu, rfl⟩ := isFinite_iff.1 ha
  obtain ⟨v, hv, rfl⟩ := isFinite_iff.1 hb
  obtain ⟨w, hw, rfl⟩ := isFinite_iff.1 hc
  rw [fin_le_fin] at h1 h2
  rw [apart_comm] at h ⊢
  unfold Apart at *
  rw [sub_fin, abs_of_nonneg' (by rw [zero_def]; exact fin_le_rnd (by linarith))] at *
  intro hlt
  exact h (F32.lt_of_le_of_lt (rnd_mono (by linarith)) hlt)

/-- the list after de-duplication, `last` being the last one kept -/
theorem dedupFrom_spec : ∀ (l : List F32) (last : Option F32), (∀ x ∈ l, x.isFinite = true) → l.Pairwise (· ≤ ·) →
    (∀ a ∈ last, a.isFinite = true ∧ ∀ x ∈ l, a ≤ x) →
    (∀ x ∈ dedupFrom last l, x ∈ l ∧ ∀ a ∈ last, Apart a x) ∧ (dedupFrom last l).Pairwise Apart ∧
    (dedupFrom last l).Sublist l ∧ ∀ x ∈ l, ∃ u, (u ∈ last ∨ u ∈ dedupFrom last l) ∧ u ≤ x ∧ ¬ Apart u x := by
  intro l
  induction l with
  | nil => intro last _ _ _; cases last <;> simp [dedupFrom]
  | cons b l ih =>
    intro last hf hs hl
    have hb := hf b (by simp)
    obtain ⟨hs1, hs2⟩ := List.pairwise_cons.1 hs
    have hf' : ∀ x ∈ l, x.isFinite = true := fun x hx => hf x (List.mem_cons_of_mem _ hx)
    have hbb : b ≤ b := F32.le_refl (by intro e; rw [e] at hb; simp [F32.isFinite] at hb)
    have key : ∀ last : Option F32, (∀ a ∈ last, a.isFinite = true ∧ a ≤ b ∧ Apart a b) →
        (∀ x ∈ b :: dedupFrom (some b) l, x ∈ b :: l ∧ ∀ a ∈ last, Apart a x) ∧ (b :: dedupFrom (some b) l).Pairwise Apart ∧
        (b :: dedupFrom (some b) l).Sublist (b :: l) ∧
        ∀ x ∈ b :: l, ∃ u, (u ∈ last ∨ u ∈ b :: dedupFrom (some b) l) ∧ u ≤ x ∧ ¬ Apart u x := by
      intro last hlast
      obtain ⟨i1, i2, i3, i4⟩ := ih (some b) hf' hs2 (by
        intro a ha; cases ha; exact ⟨hb, hs1⟩)
      refine ⟨fun x hx => ?_, List.pairwise_cons.2 ⟨fun x hx => (i1 x hx).2 b rfl, i2⟩, i3.cons₂ b, fun x hx => ?_⟩
      · rcases List.mem_cons.1 hx with rfl | hx
        · exact ⟨by simp, fun a ha => (hlast a ha).2.2⟩
        · obtain ⟨j1, j2⟩ := i1 x hx
          refine ⟨List.mem_cons_of_mem _ j1, fun a ha => ?_⟩
          obtain ⟨k1, k2, -⟩ := hlast a ha
          exact apart_far hb (hf' x j1) k1 k2 (hs1 x j1) (j2 b rfl)
      · rcases List.mem_cons.1 hx with rfl | hx
        · exact ⟨x, Or.inr (by simp), hbb, not_apart_self hb⟩
        · obtain ⟨u, hu, hux⟩ := i4 x hx
          refine ⟨u, Or.inr ?_, hux⟩
          rcases hu with hu | hu
          · cases hu; simp
          · exact List.mem_cons_of_mem _ hu
    cases last with
    | none =>
      exact key none (by simp)
    | some last =>
      obtain ⟨l1, l2⟩ := hl last rfl
      unfold dedupFrom
      split_ifs with hd
      · obtain ⟨i1, i2, i3, i4⟩ := ih (some last) hf' hs2 (by
          intro a ha; cases ha; exact ⟨l1, fun x hx => l2 x (List.mem_cons_of_mem _ hx)⟩)
        refine ⟨fun x hx => ⟨List.mem_cons_of_mem _ (i1 x hx).1, (i1 x hx).2⟩, i2, i3.cons b, fun x hx => ?_⟩
        rcases List.mem_cons.1 hx with rfl | hx
        · refine ⟨last, Or.inl rfl, l2 x (by simp), ?_⟩
          unfold Apart; rw [abs_sub_comm', not_not]; exact hd
        · exact i4 x hx
      · refine key (some last) ?_
        intro a ha
        cases ha
        exact ⟨l1, l2 b (by simp), by unfold Apart; rw [abs_sub_comm']; exact hd⟩

theorem uniq_spec {l : List F32} (h : ∀ x ∈ l, x.isFinite = true) :
    (∀ x ∈ uniq l, x ∈ l) ∧ (uniq l).Pairwise Apart ∧ ∀ x ∈ l, ∃ u ∈ uniq l, ¬ Apart u x := by
  have hn : ∀ x ∈ l, id x ≠ nan := by
    intro x hx e
    have := h x hx
    rw [show x = nan from e] at this
    simp [F32.isFinite] at this
  obtain ⟨h1, h2, -, h4⟩ := dedupFrom_spec (sortAsc id l) none (fun x hx => h x (mem_sortAsc.1 hx)) (sortAsc_pairwise hn) (by simp)
  refine ⟨fun x hx => mem_sortAsc.1 (h1 x hx).1, h2, fun x hx => ?_⟩
  obtain ⟨u, hu, -, hux⟩ := h4 x (mem_sortAsc.2 hx)
  rcases hu with hu | hu
  · cases hu
  · exact ⟨u, hu, hux⟩

theorem folded_mem {minB maxB : F32} {ss : List F32} {b : F32} :
    b ∈ folded minB maxB ss ↔ (∃ s ∈ ss, ∃ f ∈ factors, b = s * f) ∧ b.isFinite = true ∧ minB ≤ b ∧ b ≤ maxB := by
  unfold folded
  simp only [List.mem_filter, List.mem_flatMap, List.mem_map, Bool.and_eq_true, decide_eq_true_eq]
  constructor
  · rintro ⟨⟨s, hs, f, hf, rfl⟩, ⟨h1, h2⟩, h3⟩
    exact ⟨⟨s, hs, f, hf, rfl⟩, h1, h2, h3⟩
  · rintro ⟨⟨s, hs, f, hf, rfl⟩, h1, h2, h3⟩
    exact ⟨⟨s, hs, f, hf, rfl⟩, ⟨h1, h2⟩, h3⟩

/-! ### Selection -/

/-- what the candidates handed to the selection satisfy -/
def Sound (p : Params) (l : List Scored) : Prop :=
  (∀ c ∈ l, InBpm p c.bpm ∧ c.bpm.isFinite = true) ∧ l.Pairwise (fun a b => Apart a.bpm b.bpm)

theorem octave_mem {minB maxB : F32} {best : Scored} {l : List Scored} (h : best ∈ l) : octave minB maxB best l ∈ l := by
  unfold octave
  split_ifs with h1
  · dsimp only
    split_ifs with h2
    · rcases e : l.find? (fun c => decide ((c.bpm - best.bpm / 2).abs < 0.75)) with _ | f
      · rw [e]; exact h
      · rw [e]
        dsimp only
        split_ifs
        · exact h
        · exact List.mem_of_find?_eq_some e
    · exact h
  · exact h

theorem confidence_range (best : Scored) (l : List Scored) :
    UnitOrNaN (confidence best l) ∧ (best.score ≠ inf false → InUnit (confidence best l)) := by
  unfold confidence
  split_ifs with h
  · generalize ((l[1]?).map Scored.score).getD 0 = s
    have h0 : 0 ≤ F32.max (best.score - s) 0 := le_max_right zero_ne_nan
    constructor
    · by_cases hn : F32.max (best.score - s) 0 / best.score = nan
      · left; rw [hn, clamp_nan]
      · right; exact clamp01 hn
    · intro hi
      apply clamp01
      have hp : (0 : F32) < best.score := F32.lt_trans (by decide +kernel) h
      rcases nonneg_cases (F32.le_of_lt hp) with e | ⟨v, hv, e, v0⟩
      · exact absurd e hi
      · rw [e, zero_def, fin_lt_fin] at hp
        rcases nonneg_cases h0 with e2 | ⟨w, hw, e2, w0⟩
        · rw [e2, e, inf_div_fin]; simp
        · rw [e2, e, div_fin hp.ne']; exact rnd_ne_nan _
  · exact ⟨Or.inr ⟨by decide +kernel, by decide +kernel⟩, fun _ => ⟨by decide +kernel, by decide +kernel⟩⟩

theorem agreement_le (pf pa b : F32) : agreement pf pa b ≤ 2 := by
  unfold agreement; split_ifs <;> omega

/-- the selection on sound candidates -/
theorem select_spec {p : Params} {pf pa : F32} {l : List Scored} {e : Period.Est} {cs : List CandDbg} (hl : Sound p l)
    (h : select p.minB p.maxB pf pa l = .ok (e, cs)) :
    (∃ c ∈ l, c.bpm = e.bpm ∧ e.conf = confidence c (sortDesc Scored.score l)) ∧ UnitOrNaN e.conf ∧ e.agreement ≤ 2 ∧
    cs.map CandDbg.bpm = (sortDesc Scored.score l).map Scored.bpm ∧
    cs.map CandDbg.score = (sortDesc Scored.score l).map Scored.score ∧
    (∀ c ∈ cs, c.selected = true ↔ c.bpm = e.bpm) ∧ (cs.filter (fun c => c.selected)).length = 1 := by
  unfold select at h
  dsimp only at h
  have hperm := sortDesc_perm (key := Scored.score) l
  have hsep : (sortDesc Scored.score l).Pairwise (fun a b => Apart a.bpm b.bpm) :=
    (hperm.pairwise_iff (fun h => apart_comm.1 h)).2 hl.2
  have hmem : ∀ c ∈ sortDesc Scored.score l, InBpm p c.bpm ∧ c.bpm.isFinite = true := fun c hc => hl.1 c (hperm.mem_iff.1 hc)
  generalize hL : sortDesc Scored.score l = L at h hperm hsep hmem ⊢
  rcases L with _ | ⟨top, rest⟩
  · cases h
  · dsimp only at h
    have hb : octave p.minB p.maxB top (top :: rest) ∈ top :: rest := octave_mem (by simp)
    generalize octave p.minB p.maxB top (top :: rest) = best at h hb
    cases h
    have hsel : ∀ c ∈ top :: rest, (c.bpm - best.bpm).abs < 0.75 ↔ c = best := by
      intro c hc
      constructor
      · intro hlt
        by_contra hne
        have : Std.Symm (fun a b : Scored => Apart a.bpm b.bpm) := ⟨fun _ _ h => apart_comm.1 h⟩
        exact (hsep.forall hc hb hne) hlt
      · rintro rfl
        have := not_apart_self (hmem c hc).2
        unfold Apart at this
        rwa [not_not] at this
    refine ⟨⟨best, hperm.mem_iff.1 hb, rfl, rfl⟩, (confidence_range _ _).1, agreement_le _ _ _, ?_, ?_, ?_, ?_⟩
    · rw [List.map_map]; rfl
    · rw [List.map_map]; rfl
    · intro c hc
      obtain ⟨d, hd, rfl⟩ := List.mem_map.1 hc
      dsimp only
      rw [decide_eq_true_eq]
      constructor
      · intro hlt; rw [(hsel d hd).1 hlt]
      · intro he
        have := not_apart_self (hmem d hd).2
        unfold Apart at this
        rw [not_not] at this
        rw [← he]; exact this
    · rw [List.filter_map, List.length_map]
      have e : ∀ c ∈ top :: rest, ((fun c : CandDbg => c.selected) ∘ fun c : Scored =>
          (⟨c.bpm, c.score, c.fftNorm, c.acNorm, decide ((c.bpm - best.bpm).abs < 0.75)⟩ : CandDbg)) c = (c == best) := by
        intro c hc
        show decide ((c.bpm - best.bpm).abs < 0.75) = (c == best)
        rw [Bool.eq_iff_iff, decide_eq_true_eq, beq_iff_eq]
        exact hsel c hc
      rw [List.filter_congr e, ← List.countP_eq_length_filter]
      have hnd : (top :: rest).Nodup := by
        refine List.Pairwise.imp_of_mem ?_ hsep
        rintro a b ha - hab rfl
        exact not_apart_self (hmem a ha).2 hab
      exact List.count_eq_one_of_mem hnd hb

end Verif.Props
