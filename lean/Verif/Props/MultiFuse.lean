/-
Multi-resolution escalation (C24): src/features/period/multi_resolution.rs, `multi_resolution_tempogram_from_samples`.
-/
import Verif.Props.MultiRes

namespace Verif.Props
open Verif F32 Tempogram Novelty

/-! ### Specification -/

/-- a candidate within the tolerance of a tempo -/
def Near (cs : List CandDbg) (b tol : F32) : Prop := ∃ c ∈ cs, (c.bpm - b).abs ≤ tol

/-- all candidates are inside the range -/
def CandsIn (minB maxB : F32) (cs : List CandDbg) : Prop := ∀ c ∈ cs, minB ≤ c.bpm ∧ c.bpm ≤ maxB

/-- the comfortable range of the folding rules -/
def Comfort (b : F32) : Prop := 70 ≤ b ∧ b ≤ 180

/-! ### Lookup -/

theorem lookup_spec (t : List (F32 × F32)) (b tol : F32) :
    lookup t b tol = 0 ∨ ∃ e ∈ t, (e.1 - b).abs ≤ tol ∧ lookup t b tol = e.2 := by
  unfold lookup
  have key : ∀ (t : List (F32 × F32)) (a : F32 × F32),
      (t.foldl (fun (best : F32 × F32) e =>
        let d := (e.1 - b).abs
        if d ≤ tol ∧ d < best.1 then (d, e.2) else best) a).2 = a.2 ∨
      ∃ e ∈ t, (e.1 - b).abs ≤ tol ∧ (t.foldl (fun (best : F32 × F32) e =>
        let d := (e.1 - b).abs
        if d ≤ tol ∧ d < best.1 then (d, e.2) else best) a).2 = e.2 := by
    intro t
    induction t with
    | nil => intro a; exact Or.inl rfl
    | cons x t ih =>
      intro a
      rw [List.foldl_cons]
      dsimp only
      by_cases h : (x.1 - b).abs ≤ tol ∧ (x.1 - b).abs < a.1
      · rw [if_pos h]
        right
        rcases ih ((x.1 - b).abs, x.2) with e | ⟨y, hy, h1, h2⟩
        · exact ⟨x, by simp, h.1, e⟩
        · exact ⟨y, by simp [hy], h1, h2⟩
      · rw [if_neg h]
        rcases ih a with e | ⟨y, hy, h1, h2⟩
        · exact Or.inl e
        · exact Or.inr ⟨y, by simp [hy], h1, h2⟩
  exact key t _

theorem near_spec (cs : List CandDbg) (b tol : F32) :
    MultiRes.near cs b tol = 0 ∨ ∃ c ∈ cs, (c.bpm - b).abs ≤ tol ∧ MultiRes.near cs b tol = c.score := by
  rcases lookup_spec (cs.map (fun c => (c.bpm, c.score))) b tol with h | ⟨e, he, h1, h2⟩
  · exact Or.inl h
  · obtain ⟨c, hc, rfl⟩ := List.mem_map.1 he
    exact Or.inr ⟨c, hc, h1, h2⟩

theorem near_pos {cs : List CandDbg} {b tol : F32} (h : 0 < MultiRes.near cs b tol) : Near cs b tol := by
  rcases near_spec cs b tol with e | ⟨c, hc, h1, -⟩
  · rw [e] at h; exact absurd h (F32.lt_irrefl _)
  · exact ⟨c, hc, h1⟩

theorem support_le (c : MultiRes.Trio) (b : F32) : (MultiRes.support c b).2 ≤ 3 := by
  unfold MultiRes.support
  dsimp only
  split_ifs <;> omega

theorem support_near {c : MultiRes.Trio} {b : F32} {n : ℕ} (h : n ≤ (MultiRes.support c b).2) (hn : 1 ≤ n) :
    Near (c.c256 ++ c.c512 ++ c.c1024) b c.tol := by
  unfold MultiRes.support at h
  dsimp only at h
  by_cases h1 : 0 < MultiRes.near c.c256 b c.tol
  · obtain ⟨x, hx, h⟩ := near_pos h1
    exact ⟨x, by simp [hx], h⟩
  by_cases h2 : 0 < MultiRes.near c.c512 b c.tol
  · obtain ⟨x, hx, h⟩ := near_pos h2
    exact ⟨x, by simp [hx], h⟩
  by_cases h3 : 0 < MultiRes.near c.c1024 b c.tol
  · obtain ⟨x, hx, h⟩ := near_pos h3
    exact ⟨x, by simp [hx], h⟩
  rw [if_neg h1, if_neg h2, if_neg h3] at h
  omega

/-! ### Where the reported tempo comes from -/

theorem locals_mem {minB maxB : F32} {W : MultiRes.Weights} {c : MultiRes.Trio} {t : F32} {h : MultiRes.Hyp}
    (hm : h ∈ MultiRes.locals minB maxB W c t) :
    (minB ≤ h.bpm ∧ h.bpm ≤ maxB) ∧ (h.bpm = t ∨ h.bpm = t * 2 ∨ h.bpm = t * 0.5) := by
  unfold MultiRes.locals at hm
  rw [mem_sortDesc] at hm
  obtain ⟨x, hx, rfl⟩ := List.mem_map.1 hm
  obtain ⟨hx, hb⟩ := List.mem_filter.1 hx
  refine ⟨by simpa using hb, ?_⟩
  simp only [List.mem_cons, List.not_mem_nil, or_false] at hx
  rcases hx with rfl | rfl | rfl <;> simp

theorem choose_bpm (W : MultiRes.Weights) (c : MultiRes.Trio) (t : F32) (best : MultiRes.Hyp) (rest : List MultiRes.Hyp) :
    (MultiRes.choose W c t best rest).bpm = t ∨ (MultiRes.choose W c t best rest).bpm = best.bpm := by
  unfold MultiRes.choose
  dsimp only
  split_ifs <;> simp

theorem hypOf_bpm {minB maxB : F32} {W : MultiRes.Weights} {c : MultiRes.Trio} {t : F32} {h : MultiRes.Hyp}
    (hm : MultiRes.hypOf minB maxB W c t = some h) (ht : minB ≤ t ∧ t ≤ maxB) :
    (minB ≤ h.bpm ∧ h.bpm ≤ maxB) ∧ (h.bpm = t ∨ h.bpm = t * 2 ∨ h.bpm = t * 0.5) := by
  unfold MultiRes.hypOf at hm
  split_ifs at hm with h1
  rcases hL : MultiRes.locals minB maxB W c t with _ | ⟨best, rest⟩
  · rw [hL] at hm; cases hm
  · rw [hL] at hm
    cases hm
    rcases choose_bpm W c t best rest with e | e
    · rw [e]; exact ⟨ht, Or.inl rfl⟩
    · rw [e]; exact locals_mem (by rw [hL]; simp)

theorem keep8_mem : ∀ (l u : List MultiRes.Hyp) (x : MultiRes.Hyp), x ∈ MultiRes.keep8 u l → x ∈ u ∨ x ∈ l
  | [], u, x, h => Or.inl h
  | h :: hs, u, x, hx => by
    unfold MultiRes.keep8 at hx
    split_ifs at hx
    · rcases keep8_mem hs u x hx with h1 | h1
      · exact Or.inl h1
      · exact Or.inr (by simp [h1])
    · rcases List.mem_append.1 hx with h1 | h1
      · exact Or.inl h1
      · right; rw [List.mem_singleton.1 h1]; simp
    · rcases keep8_mem hs _ x hx with h1 | h1
      · rcases List.mem_append.1 h1 with h1 | h1
        · exact Or.inl h1
        · right; rw [List.mem_singleton.1 h1]; simp
      · exact Or.inr (by simp [h1])

/-- where the reported tempo may lie: in the search range, or at a comfortable tempo with a candidate nearby -/
def Placed (minB maxB : F32) (c : MultiRes.Trio) (b : F32) : Prop :=
  (minB ≤ b ∧ b ≤ maxB) ∨ (Comfort b ∧ Near (c.c256 ++ c.c512 ++ c.c1024) b c.tol)

theorem replaces_near {c : MultiRes.Trio} {cur b thr : F32} {n : ℕ} (hn : 1 ≤ n) (h : MultiRes.replaces c cur b n thr = true) :
    Near (c.c256 ++ c.c512 ++ c.c1024) b c.tol := by
  unfold MultiRes.replaces at h
  simp only [Bool.and_eq_true, decide_eq_true_eq] at h
  exact support_near h.1.1.1 hn

theorem foldDown_placed {minB maxB : F32} {c : MultiRes.Trio} {h : MultiRes.Hyp} (hp : Placed minB maxB c h.bpm) :
    Placed minB maxB c (MultiRes.foldDown c h).bpm := by
  unfold MultiRes.foldDown
  dsimp only
  split_ifs with h1
  · exact Or.inr ⟨⟨h1.2.1.1, F32.le_trans h1.2.1.2 (by decide +kernel)⟩, replaces_near (by omega) h1.2.2⟩
  · exact hp

theorem foldUp_placed {minB maxB : F32} {c : MultiRes.Trio} {h : MultiRes.Hyp} (hp : Placed minB maxB c h.bpm) :
    Placed minB maxB c (MultiRes.foldUp c h).bpm := by
  unfold MultiRes.foldUp
  dsimp only
  split_ifs with h1
  · exact Or.inr ⟨h1.2.1, replaces_near (by omega) h1.2.2⟩
  · exact hp

theorem fams_mem {minB maxB : F32} {sr : ℕ} {c : MultiRes.Trio} {nov : List F32} {best : F32} {f : MultiRes.Fam}
    (h : f ∈ MultiRes.fams minB maxB sr c nov best) : (minB ≤ f.bpm ∧ f.bpm ≤ maxB) ∧ Comfort f.bpm ∧
      f.support = (MultiRes.support c f.bpm).1 ∧ 2 ≤ (MultiRes.support c f.bpm).2 := by
  unfold MultiRes.fams at h
  obtain ⟨b, hb, rfl⟩ := List.mem_map.1 h
  have := (List.mem_filter.1 hb).2
  simp only [Bool.and_eq_true, decide_eq_true_eq, Bool.not_eq_true', Bool.or_eq_false_iff, decide_eq_false_iff_not] at this
  obtain ⟨⟨⟨⟨-, h1⟩, h2⟩, h3⟩, h4, -⟩ := this
  exact ⟨⟨h1, h2⟩, h3, rfl, by dsimp only; omega⟩

theorem chooseFam_mem (top : F32) (first : MultiRes.Fam) (fs : List MultiRes.Fam) :
    MultiRes.chooseFam top first fs = first ∨ MultiRes.chooseFam top first fs ∈ fs := by
  unfold MultiRes.chooseFam
  have key : ∀ (fs : List MultiRes.Fam) (a : MultiRes.Fam × F32),
      (fs.foldl (fun (acc : MultiRes.Fam × F32) f => if acc.2 < MultiRes.famScore top f then (f, MultiRes.famScore top f) else acc) a).1 = a.1 ∨
      (fs.foldl (fun (acc : MultiRes.Fam × F32) f => if acc.2 < MultiRes.famScore top f then (f, MultiRes.famScore top f) else acc) a).1 ∈ fs := by
    intro fs
    induction fs with
    | nil => intro a; exact Or.inl rfl
    | cons x fs ih =>
      intro a
      rw [List.foldl_cons]
      split_ifs
      · rcases ih (x, MultiRes.famScore top x) with e | e
        · right; rw [e]; simp
        · exact Or.inr (List.mem_cons_of_mem _ e)
      · rcases ih a with e | e
        · exact Or.inl e
        · exact Or.inr (List.mem_cons_of_mem _ e)
  exact key fs _

/-- the triplet step keeps the tempo or moves to a supported relative inside both ranges -/
theorem triplet_cases (minB maxB : F32) (sr : ℕ) (c : MultiRes.Trio) (nov : Option (List F32)) (best : MultiRes.Hyp) :
    MultiRes.triplet minB maxB sr c nov best = best ∨
    ∃ n f, nov = some n ∧ f ∈ MultiRes.fams minB maxB sr c n best.bpm ∧
      MultiRes.triplet minB maxB sr c nov best = ⟨f.bpm, f.support⟩ := by
  rcases nov with _ | nov
  · exact Or.inl rfl
  unfold MultiRes.triplet
  dsimp only
  by_cases h1 : 70 ≤ best.bpm ∧ best.bpm ≤ 180
  swap
  · rw [if_neg h1]; exact Or.inl rfl
  rw [if_pos h1]
  by_cases h2 : nov = []
  · rw [if_pos h2]; exact Or.inl rfl
  rw [if_neg h2]
  rcases hf : MultiRes.fams minB maxB sr c nov best.bpm with _ | ⟨a, _ | ⟨b, fs⟩⟩
  · exact Or.inl rfl
  · exact Or.inl rfl
  · dsimp only
    split_ifs with h3 h4
    · right
      refine ⟨nov, _, rfl, ?_, rfl⟩
      rw [hf]
      rcases chooseFam_mem (F32.max (((a :: b :: fs).map MultiRes.Fam.support).foldl F32.max 0) 1e-6) a (a :: b :: fs) with e | e
      · rw [e]; simp
      · exact e
    · exact Or.inl rfl
    · exact Or.inl rfl

theorem fuse_inv {minB maxB : F32} {sr topK : ℕ} {W : MultiRes.Weights} {nov : Option (List F32)} {c : MultiRes.Trio} {e cs}
    (h : MultiRes.fuse minB maxB sr topK W nov c = .ok (e, cs)) :
    ∃ top rest, MultiRes.keep8 [] (sortDesc MultiRes.Hyp.score
        ((c.c512.take topK).filterMap (fun t => MultiRes.hypOf minB maxB W c t.bpm))) = top :: rest ∧
      ∃ best, best = MultiRes.triplet minB maxB sr c nov (MultiRes.foldUp c (MultiRes.foldDown c top)) ∧
        e = ⟨best.bpm, MultiRes.confOf best (top :: rest), (MultiRes.support c best.bpm).2⟩ ∧
        cs = c.c512.map (fun x => { x with selected := decide ((x.bpm - best.bpm).abs < 0.75) }) := by
  unfold MultiRes.fuse at h
  dsimp only at h
  split at h
  · cases h
  · rename_i top rest hk
    cases h
    exact ⟨top, rest, hk, _, rfl, rfl, rfl⟩

theorem top_mem {minB maxB : F32} {topK : ℕ} {W : MultiRes.Weights} {c : MultiRes.Trio} {top : MultiRes.Hyp} {rest}
    (h : MultiRes.keep8 [] (sortDesc MultiRes.Hyp.score
        ((c.c512.take topK).filterMap (fun t => MultiRes.hypOf minB maxB W c t.bpm))) = top :: rest) :
    ∀ x ∈ top :: rest, ∃ t ∈ c.c512, MultiRes.hypOf minB maxB W c t.bpm = some x := by
  intro x hx
  have : x ∈ MultiRes.keep8 [] (sortDesc MultiRes.Hyp.score
        ((c.c512.take topK).filterMap (fun t => MultiRes.hypOf minB maxB W c t.bpm))) := by rw [h]; exact hx
  rcases keep8_mem _ _ _ this with h1 | h1
  · simp at h1
  · rw [mem_sortDesc] at h1
    obtain ⟨t, ht, e⟩ := List.mem_filterMap.1 h1
    exact ⟨t, List.mem_of_mem_take ht, e⟩

theorem confOf_unit (best : MultiRes.Hyp) (u : List MultiRes.Hyp) :
    UnitOrNaN (MultiRes.confOf best u) ∧ (best.score ≠ inf false → InUnit (MultiRes.confOf best u)) := by
  unfold MultiRes.confOf
  generalize ((u[1]?).map MultiRes.Hyp.score).getD 0 = s
  split_ifs with h
  · have h0 : 0 ≤ F32.max (best.score - s) 0 := le_max_right zero_ne_nan
    constructor
    · by_cases hn : F32.max (best.score - s) 0 / best.score = nan
      · left; rw [hn, clamp_nan]
      · right; exact clamp01 hn
    · intro hi
      apply clamp01
      have hp : (0 : F32) < best.score := F32.lt_trans (by decide +kernel) h
      rcases nonneg_cases (F32.le_of_lt hp) with e | ⟨v, hv, e, v0⟩
      · exact absurd e hi
      · rw [e, zero_def, fin_lt_fin] at hp
        rcases nonneg_cases h0 with e2 | ⟨w, hw, e2, w0⟩
        · rw [e2, e, inf_div_fin]; simp
        · rw [e2, e, div_fin hp.ne']; exact rnd_ne_nan _
  · exact ⟨Or.inr ⟨by decide +kernel, by decide +kernel⟩, fun _ => ⟨by decide +kernel, by decide +kernel⟩⟩

/-- the fusion of candidates inside the range -/
theorem fuse_spec {minB maxB : F32} {sr topK : ℕ} {W : MultiRes.Weights} {nov : Option (List F32)} {c : MultiRes.Trio} {e cs}
    (hc : CandsIn minB maxB c.c512) (h : MultiRes.fuse minB maxB sr topK W nov c = .ok (e, cs)) :
    Placed minB maxB c e.bpm ∧ UnitOrNaN e.conf ∧ e.agreement = (MultiRes.support c e.bpm).2 ∧
    cs = c.c512.map (fun x => { x with selected := decide ((x.bpm - e.bpm).abs < 0.75) }) := by
  obtain ⟨top, rest, hk, best, hb, rfl, rfl⟩ := fuse_inv h
  refine ⟨?_, (confOf_unit _ _).1, rfl, rfl⟩
  dsimp only
  have htop : Placed minB maxB c top.bpm := by
    obtain ⟨t, ht, e⟩ := top_mem hk top (by simp)
    exact Or.inl (hypOf_bpm e (hc t ht)).1
  rcases triplet_cases minB maxB sr c nov (MultiRes.foldUp c (MultiRes.foldDown c top)) with e | ⟨n, f, -, hf, e⟩
  · rw [hb, e]; exact foldUp_placed (foldDown_placed htop)
  · rw [hb, e]; exact Or.inl (fams_mem hf).1

theorem fromSamples_inv {M : Libm} {sfft} {fft} {fuel : ℕ} {samples : List F32} {sr frame : ℕ} {minB maxB res : F32} {topK : ℕ}
    {W : MultiRes.Weights} {cfg : Option BandCfg} {r}
    (h : MultiRes.fromSamples M sfft fft fuel samples sr frame minB maxB res topK W cfg = .ok r) :
    frame ≤ samples.length ∧ ∃ h256 h512 h1024 e256 e512 e1024 c256 c512 c1024 nov,
      Chroma.computeStft M sfft samples frame 256 = .ok h256 ∧ Chroma.computeStft M sfft samples frame 512 = .ok h512 ∧
      Chroma.computeStft M sfft samples frame 1024 = .ok h1024 ∧
      estimateCands M fft fuel h256 ⟨sr, 256, minB, maxB, res⟩ (MultiRes.auxK topK) (MultiRes.active cfg) = .ok (e256, c256) ∧
      estimateCands M fft fuel h512 ⟨sr, 512, minB, maxB, res⟩ (Nat.max topK 1) (MultiRes.active cfg) = .ok (e512, c512) ∧
      estimateCands M fft fuel h1024 ⟨sr, 1024, minB, maxB, res⟩ (MultiRes.auxK topK) (MultiRes.active cfg) = .ok (e1024, c1024) ∧
      MultiRes.novelty512 M h512 sr cfg = .ok nov ∧
      MultiRes.fuse minB maxB sr (Nat.max topK 1) W nov ⟨c256, c512, c1024, F32.max 2 res⟩ = .ok r := by
  unfold MultiRes.fromSamples at h
  split_ifs at h with h0
  obtain ⟨h256, e1, h⟩ := R.bind_eq_ok.1 h
  obtain ⟨h512, e2, h⟩ := R.bind_eq_ok.1 h
  obtain ⟨h1024, e3, h⟩ := R.bind_eq_ok.1 h
  obtain ⟨⟨x256, c256⟩, e4, h⟩ := R.bind_eq_ok.1 h
  obtain ⟨⟨x512, c512⟩, e5, h⟩ := R.bind_eq_ok.1 h
  obtain ⟨⟨x1024, c1024⟩, e6, h⟩ := R.bind_eq_ok.1 h
  obtain ⟨nov, e7, h⟩ := R.bind_eq_ok.1 h
  exact ⟨by omega, _, _, _, _, _, _, _, _, _, _, e1, e2, e3, e4, e5, e6, e7, h⟩

theorem cands_in {M : Libm} {fft} {fuel : ℕ} {spec : List (List F32)} {p : Params} {k : ℕ} {cfg : Option BandCfg} {e cs}
    (h : estimateCands M fft fuel spec p k cfg = .ok (e, cs)) : CandsIn p.minB p.maxB cs :=
  fun c hc => ((C21_range M fft fuel spec p cfg k).2 e cs h).2.2.2 c hc

/-- **C24 (result)**, partial: the agreement is at most three and the confidence in `[0,1]` or NaN; the BPM is in the search
range, or it is a tempo between 70 and 180 within `max(2, bpm_resolution)` of a candidate inside the search range; so a search
range that covers 70 to 180 BPM is never left.  In general the range can be left (`C24_violated`), and the confidence be NaN
(`C24_violated_conf`). -/
theorem C24_range_partial (M : Libm) (sfft : List F32 → List (F32 × F32)) (fft : List F32 → ℕ → F32 × F32) (fuel : ℕ)
    (samples : List F32) (sr frame : ℕ) (minB maxB res : F32) (topK : ℕ) (W : MultiRes.Weights) (cfg : Option BandCfg)
    (e : Period.Est) (cs : List CandDbg)
    (h : MultiRes.fromSamples M sfft fft fuel samples sr frame minB maxB res topK W cfg = .ok (e, cs)) :
    e.agreement ≤ 3 ∧ UnitOrNaN e.conf ∧
    ((minB ≤ e.bpm ∧ e.bpm ≤ maxB) ∨
      (Comfort e.bpm ∧ ∃ b, minB ≤ b ∧ b ≤ maxB ∧ (b - e.bpm).abs ≤ F32.max 2 res)) ∧
    (minB ≤ 70 → 180 ≤ maxB → minB ≤ e.bpm ∧ e.bpm ≤ maxB) := by
  obtain ⟨-, h256, h512, h1024, e256, e512, e1024, c256, c512, c1024, nov, -, -, -, h1, h2, h3, -, hf⟩ := fromSamples_inv h
  have i1 := cands_in h1
  have i2 := cands_in h2
  have i3 := cands_in h3
  obtain ⟨hp, hu, ha, -⟩ := fuse_spec i2 hf
  refine ⟨ha ▸ support_le _ _, hu, ?_, fun hlo hhi => ?_⟩
  · rcases hp with hp | ⟨hc, c, hm, hd⟩
    · exact Or.inl hp
    · refine Or.inr ⟨hc, c.bpm, ?_, ?_, hd⟩
      · rcases List.mem_append.1 hm with hm | hm
        · rcases List.mem_append.1 hm with hm | hm
          · exact (i1 c hm).1
          · exact (i2 c hm).1
        · exact (i3 c hm).1
      · rcases List.mem_append.1 hm with hm | hm
        · rcases List.mem_append.1 hm with hm | hm
          · exact (i1 c hm).2
          · exact (i2 c hm).2
        · exact (i3 c hm).2
  · rcases hp with hp | ⟨hc, -⟩
    · exact hp
    · exact ⟨F32.le_trans hlo hc.1, F32.le_trans hc.2 hhi⟩

theorem remark_spec {l cs : List CandDbg} {b : F32}
    (h : cs = l.map (fun x => { x with selected := decide ((x.bpm - b).abs < 0.75) })) :
    cs.map CandDbg.bpm = l.map CandDbg.bpm ∧ cs.map CandDbg.score = l.map CandDbg.score ∧ cs.length = l.length ∧
    (l.Pairwise (fun a b => Apart a.bpm b.bpm) → cs.Pairwise (fun a b => Apart a.bpm b.bpm)) ∧
    (∀ c ∈ cs, c.selected = true ↔ ¬ Apart c.bpm b) := by
  refine ⟨by rw [h, List.map_map]; rfl, by rw [h, List.map_map]; rfl, by rw [h, List.length_map], fun hp => ?_, fun c hc => ?_⟩
  · rw [h, List.pairwise_map]; exact hp
  · rw [h] at hc
    obtain ⟨x, -, rfl⟩ := List.mem_map.1 hc
    unfold Apart
    rw [not_not]
    exact decide_eq_true_iff

/-- **C24 (candidates)**: the reported candidates are those of the pass with hop 512, with the flag `selected` set exactly for
those within 0.75 BPM of the reported tempo; the agreement counts the passes with positive support near that tempo. -/
theorem C24_candidates (M : Libm) (sfft : List F32 → List (F32 × F32)) (fft : List F32 → ℕ → F32 × F32) (fuel : ℕ)
    (samples : List F32) (sr frame : ℕ) (minB maxB res : F32) (topK : ℕ) (W : MultiRes.Weights) (cfg : Option BandCfg)
    (e : Period.Est) (cs : List CandDbg)
    (h : MultiRes.fromSamples M sfft fft fuel samples sr frame minB maxB res topK W cfg = .ok (e, cs)) :
    ∃ spec e512 c512, Chroma.computeStft M sfft samples frame 512 = .ok spec ∧
      estimateCands M fft fuel spec ⟨sr, 512, minB, maxB, res⟩ (Nat.max topK 1) (MultiRes.active cfg) = .ok (e512, c512) ∧
      cs.map CandDbg.bpm = c512.map CandDbg.bpm ∧ cs.map CandDbg.score = c512.map CandDbg.score ∧
      cs.length ≤ Nat.max topK 1 ∧ cs.Pairwise (fun a b => Apart a.bpm b.bpm) ∧
      (∀ c ∈ cs, c.selected = true ↔ ¬ Apart c.bpm e.bpm) := by
  obtain ⟨-, h256, h512, h1024, e256, e512, e1024, c256, c512, c1024, nov, -, hs, -, -, h2, -, -, hf⟩ := fromSamples_inv h
  have i2 : CandsIn minB maxB c512 := cands_in h2
  have hcs : cs = c512.map (fun x => { x with selected := decide ((x.bpm - e.bpm).abs < 0.75) }) :=
    (fuse_spec (c := ⟨c256, c512, c1024, F32.max 2 res⟩) i2 hf).2.2.2
  have hc22 := C22_candidates M fft fuel h512 ⟨sr, 512, minB, maxB, res⟩ (MultiRes.active cfg) (Nat.max topK 1) e512 c512 h2
  obtain ⟨g1, g2, g3, g4, g5⟩ := remark_spec hcs
  refine ⟨h512, e512, c512, hs, h2, g1, g2, ?_, ?_, g5⟩
  · rw [g3]; exact hc22.2.1
  · exact g4 hc22.1

end Verif.Props
