/-
C51 (BPM selection), C52 (warnings and flags), C53 (onset conversion).
-/
import Verif.Model.Pipeline
import Verif.F32.Bounds
import Verif.Props.Confidence

namespace Verif.Props
open Verif Verif.Pipeline Verif.Period F32

/-! ### C51 -/

/-- `l` is within 2 BPM of `t` or of one of its octave / triplet relatives -/
def Related (t l : F32) : Prop := ∃ m ∈ [t, t * 0.5, t * 2, t * (2 / 3), t * (3 / 2)], (l - m).abs ≤ 2

theorem agreeBpm_iff {t l : F32} (h : 0 < l) : agreeBpm t l = true ↔ Related t l := by
  unfold agreeBpm Related
  rw [if_pos h]
  simp

/-- What the reported BPM should be: the legacy estimate when forced, otherwise the tempogram estimate if
there is one, otherwise the legacy estimate. -/
def Policy (force : Bool) (tempo legacy : Option Est) : Option Est :=
  if force then legacy else tempo.or legacy

/-- **C51** (partial: the confidence bound under fusion is proved when the tempogram produced an estimate;
`C51_violated` shows that it fails otherwise). -/
theorem C51_selection_partial (force fusion : Bool) (tempo legacy : Option Est)
    (ht : ∀ e ∈ tempo, 0 < e.bpm) (hl : ∀ e ∈ legacy, 0 < e.bpm) :
    let out := selectBpm force fusion tempo legacy
    -- the BPM is the policy's
    (∀ e, Policy force tempo legacy = some e → out.1 = e.bpm) ∧
    (out.1 = 0 ↔ Policy force tempo legacy = none) ∧
    -- without fusion (or without a tempogram estimate) the confidence is the estimate's own
    (∀ e, Policy force tempo legacy = some e → force = true ∨ fusion = false ∨ tempo = none → out.2 = e.conf) ∧
    (Policy force tempo legacy = none → out.2 = 0) ∧
    -- fusion: a score in [0,1]; raised by a related legacy estimate, lowered by an unrelated one
    (∀ t, force = false → fusion = true → tempo = some t → t.conf ≠ nan → (∀ l ∈ legacy, l.conf ≠ nan) →
      (0 ≤ out.2 ∧ out.2 ≤ 1) ∧
      (legacy = none → out.2 = F32.clamp t.conf 0 1) ∧
      (∀ l, legacy = some l → Related t.bpm l.bpm → F32.clamp t.conf 0 1 ≤ out.2) ∧
      (∀ l, legacy = some l → ¬ Related t.bpm l.bpm → out.2 ≤ F32.clamp t.conf 0 1)) := by
  have nz : ∀ x : F32, 0 < x → x ≠ 0 := by rintro x h rfl; exact F32.lt_irrefl _ h
  intro out
  have e0 : out = selectBpm force fusion tempo legacy := rfl
  clear_value out
  unfold selectBpm at e0
  dsimp only at e0
  cases force
  · cases fusion
    · rw [if_neg (by simp), if_neg (by simp)] at e0
      cases tempo with
      | none =>
        cases legacy with
        | none => simp at e0; simp [e0, Policy]
        | some l =>
          simp at e0
          have := nz _ (hl l rfl)
          simp [e0, Policy, this]
      | some t =>
        simp at e0
        have := nz _ (ht t rfl)
        simp [e0, Policy, this]
    · rw [if_neg (by simp), if_pos rfl] at e0
      cases tempo with
      | none =>
        rw [if_pos (by simpa using unit0.1)] at e0
        cases legacy with
        | none => simp at e0; simp [e0, Policy]
        | some l =>
          simp at e0
          have := nz _ (hl l rfl)
          simp [e0, Policy, this]
      | some t =>
        have htp := ht t rfl
        simp only [Option.map_some, Option.getD_some] at e0
        rw [if_neg (not_le_of_lt htp)] at e0
        have h1 : out.1 = t.bpm := by rw [e0]; split_ifs <;> rfl
        refine ⟨?_, ?_, ?_, ?_, ?_⟩
        · intro e he; simp [Policy] at he; rw [h1, he]
        · simp [Policy, h1, nz _ htp]
        · intro e he hh; simp at hh
        · simp [Policy]
        · intro t' _ _ he htn hln
          obtain rfl : t = t' := Option.some.inj he
          have hc := clamp01 htn
          cases legacy with
          | none =>
            simp only [Option.map_none, Option.getD_none] at e0
            have ha : agreeBpm t.bpm 0 = false := by unfold agreeBpm; rw [if_neg (F32.lt_irrefl _)]
            rw [ha, if_neg (by simp), if_neg (F32.lt_irrefl _)] at e0
            rw [e0]
            simp [hc]
          | some l =>
            have hlp := hl l rfl
            have hcl := clamp01 (hln l rfl)
            simp only [Option.map_some, Option.getD_some] at e0
            have u12 : (0 : F32) ≤ 0.12 ∧ (0.12 : F32) ≤ 1 := by decide +kernel
            have u9 : (0 : F32) ≤ 0.9 ∧ (0.9 : F32) ≤ 1 := by decide +kernel
            have hb := unit_mul u12.1 u12.2 hcl.1 hcl.2
            have hsum := le_add_right hc.1 hb.1
            have hm := mul_le_of_le_one hc.1 u9.1 u9.2 (isFinite_of_unit hc.1 hc.2)
            by_cases hr : Related t.bpm l.bpm
            · rw [if_pos ((agreeBpm_iff hlp).2 hr)] at e0
              rw [e0]
              refine ⟨clamp01 (ne_nan_right hsum), by simp, ?_, ?_⟩
              · intro l' hl' _
                dsimp only
                rcases le_total (ne_nan_right hsum) (ne_nan_left unit1.2) with h | h
                · rw [clamp_eq_self (le_trans hc.1 hsum) h]; exact hsum
                · have : F32.clamp (F32.clamp t.conf 0 1 + 0.12 * F32.clamp l.conf 0 1) 0 1 = 1 := by
                    exact clamp_eq_hi unit1.1 h
                  rw [this]; exact hc.2
              · intro l' hl' hr'
                obtain rfl : l = l' := Option.some.inj hl'
                exact absurd hr hr'
            · rw [if_neg (by rw [agreeBpm_iff hlp]; exact hr), if_pos hlp] at e0
              rw [e0]
              have hself := clamp_eq_self hm.1 (le_trans hm.2 hc.2)
              refine ⟨clamp01 (ne_nan_left hm.2), by simp, ?_, ?_⟩
              · intro l' hl' hr'
                obtain rfl : l = l' := Option.some.inj hl'
                exact absurd hr' hr
              · intro l' hl' _
                dsimp only
                rw [hself]; exact hm.2
  · rw [if_pos rfl] at e0
    cases legacy with
    | none => simp at e0; simp [e0, Policy]
    | some l =>
      simp at e0
      have := nz _ (hl l rfl)
      simp [e0, Policy, this]

/-- non-vacuity: fusion with a double-tempo legacy estimate raises the confidence, an unrelated one lowers it -/
example : Related 120 60 ∧ ¬ Related 120 97 ∧
    (selectBpm false true (some ⟨120, 0.5, 2⟩) (some ⟨60, 1, 1⟩)).1 = 120 ∧
    (0.5 : F32) < (selectBpm false true (some ⟨120, 0.5, 2⟩) (some ⟨60, 1, 1⟩)).2 ∧
    (selectBpm false true (some ⟨120, 0.5, 2⟩) (some ⟨97, 1, 1⟩)).2 < 0.5 := by
  unfold Related; decide +kernel

/-- **C51 violated**: under fusion, when the tempogram has no estimate the legacy confidence is passed through
unclamped; the legacy merge does produce confidences above 1 (also `C54_violated`). -/
theorem C51_violated :
    ∃ l ∈ merge Libm.demo [⟨120, 1⟩] [⟨120, 1⟩] 50, 2 < (selectBpm false true none (some l)).2 := by
  decide +kernel

/-! ### C52 -/

theorem contains_iff {w p : List Char} : Confidence.contains w p = true ↔ p <:+: w := by
  unfold Confidence.contains
  rw [List.any_eq_true]
  constructor
  · rintro ⟨t, ht, hp⟩
    have h1 : t <:+ w := (List.mem_tails _ _).1 ht
    exact (List.isPrefixOf_iff_prefix.1 hp).isInfix.trans h1.isInfix
  · rintro ⟨s, t, h⟩
    refine ⟨p ++ t, (List.mem_tails _ _).2 ⟨s, by rw [← h]; simp⟩, ?_⟩
    exact List.isPrefixOf_iff_prefix.2 (List.prefix_append _ _)

/-- a pattern that avoids a separator lies on one side of it -/
theorem infix_sep {p x y : List Char} {c : Char} (hc : c ∉ p) : p <:+: x ++ c :: y ↔ p <:+: x ∨ p <:+: y := by
  constructor
  · rintro ⟨s, t, h⟩
    rw [List.append_assoc] at h
    rcases List.append_eq_append_iff.1 h with ⟨a, h1, h2⟩ | ⟨a, h1, h2⟩
    · -- x = s ++ a, p ++ t = a ++ c :: y
      rcases List.append_eq_append_iff.1 h2 with ⟨b, h3, h4⟩ | ⟨b, h3, h4⟩
      · left; exact ⟨s, b, by rw [h1, h3]; simp⟩
      · cases b with
        | nil => left; exact ⟨s, [], by rw [h1, h3]; simp⟩
        | cons d b =>
          simp at h4
          exact absurd (by rw [h3, h4.1]; simp) hc
    · cases a with
      | nil =>
        simp at h2
        cases p with
        | nil => left; exact List.nil_infix
        | cons d p => simp at h2; exact absurd (by rw [h2.1]; simp) hc
      | cons d a =>
        simp at h2
        right; exact ⟨a, t, by rw [h2.2]; simp⟩
  · rintro (h | h)
    · exact h.trans (List.prefix_append _ _).isInfix
    · exact h.trans ((List.suffix_cons _ _).trans (List.suffix_append _ _)).isInfix

/-- What the formatter `{:.2}` can print for an `f32`: digits, sign, point, `NaN`, `inf`. -/
def NumberText (s : List Char) : Prop := ∀ c ∈ s, c ∈ "-.0123456789NaNinf".toList

theorem infix_warning {l s r p : List Char} (hs : NumberText s) (hp : ' ' ∉ p)
    (hx : ∃ c ∈ p, c ∉ "-.0123456789NaNinf".toList) : p <:+: (l ++ [' ']) ++ s ++ (' ' :: r) ↔ p <:+: l ∨ p <:+: r := by
  rw [infix_sep hp]
  have : l ++ [' '] ++ s = l ++ ' ' :: s := by simp
  rw [this, infix_sep hp]
  have hn : ¬ p <:+: s := by
    intro h
    obtain ⟨c, h1, h2⟩ := hx
    exact h2 (hs c (h.subset h1))
  tauto

theorem mem_warnings {fmt : F32 → List Char} {bpm stab kconf clar : F32} {p : List Char}
    (hf : ∀ x, NumberText (fmt x)) (hp : ' ' ∉ p) (hx : ∃ c ∈ p, c ∉ "-.0123456789NaNinf".toList) :
    (∃ w ∈ (warnings fmt bpm stab kconf clar).1, p <:+: w) ↔
      (bpm = 0 ∧ p <:+: "BPM detection failed: insufficient onsets or estimation error".toList) ∨
      (stab < 0.5 ∧ (p <:+: "Low beat grid stability:".toList ∨ p <:+: "(may indicate tempo variation)".toList)) ∨
      (kconf < 0.3 ∧ (p <:+: "Low key detection confidence:".toList ∨
        p <:+: "(may indicate ambiguous or atonal music)".toList)) ∨
      (clar < 0.2 ∧ (p <:+: "Low key clarity:".toList ∨
        p <:+: "(track may be atonal or have weak tonality)".toList)) := by
  have h0 : F32.feq bpm 0 = true ↔ bpm = 0 := by
    unfold feq
    constructor
    · intro h; simp at h; exact h.2
    · rintro rfl; decide +kernel
  have s1 : "Low beat grid stability: ".toList = "Low beat grid stability:".toList ++ [' '] := by decide +kernel
  have r1 : " (may indicate tempo variation)".toList = ' ' :: "(may indicate tempo variation)".toList := by
    decide +kernel
  have s2 : "Low key detection confidence: ".toList = "Low key detection confidence:".toList ++ [' '] := by
    decide +kernel
  have r2 : " (may indicate ambiguous or atonal music)".toList =
      ' ' :: "(may indicate ambiguous or atonal music)".toList := by decide +kernel
  have s3 : "Low key clarity: ".toList = "Low key clarity:".toList ++ [' '] := by decide +kernel
  have r3 : " (track may be atonal or have weak tonality)".toList =
      ' ' :: "(track may be atonal or have weak tonality)".toList := by decide +kernel
  have k1 := @infix_warning "Low beat grid stability:".toList (fmt stab) "(may indicate tempo variation)".toList p
    (hf _) hp hx
  have k2 := @infix_warning "Low key detection confidence:".toList (fmt kconf)
    "(may indicate ambiguous or atonal music)".toList p (hf _) hp hx
  have k3 := @infix_warning "Low key clarity:".toList (fmt clar)
    "(track may be atonal or have weak tonality)".toList p (hf _) hp hx
  rw [← k1, ← k2, ← k3, ← h0]
  unfold warnings
  rw [s1, r1, s2, r2, s3, r3]
  dsimp only
  simp only [List.mem_append, or_and_right, exists_or, or_assoc]
  have key : ∀ (c : Prop) [Decidable c] (x : List Char),
      (∃ w, w ∈ (if c then [x] else []) ∧ p <:+: w) ↔ (c ∧ p <:+: x) := by
    intro c _ x
    by_cases h : c <;> simp [h]
  rw [key, key, key, key]

/-- **C52**, warnings and flags of `analyze_audio`: each warning is present exactly when its value failed. -/
theorem C52_warnings (fmt : F32 → List Char) (hf : ∀ x, NumberText (fmt x)) (bpm stab kconf clar : F32) :
    let out := warnings fmt bpm stab kconf clar
    ((∃ w ∈ out.1, "BPM".toList <:+: w) ↔ bpm = 0) ∧
    ((∃ w ∈ out.1, "stability".toList <:+: w) ↔ stab < 0.5) ∧
    ((∃ w ∈ out.1, "confidence".toList <:+: w) ↔ kconf < 0.3) ∧
    ((∃ w ∈ out.1, "clarity".toList <:+: w) ↔ clar < 0.2) ∧
    out.1.length = (if bpm = 0 then 1 else 0) + (if stab < 0.5 then 1 else 0) + (if kconf < 0.3 then 1 else 0) +
      (if clar < 0.2 then 1 else 0) ∧
    out.2 = (if clar < 0.2 then [.weakTonality] else []) := by
  intro out
  have ev : ∀ (a b : List Char), Confidence.contains a b = true → (b <:+: a) = True := fun a b h =>
    eq_true (contains_iff.1 h)
  have ev' : ∀ (a b : List Char), Confidence.contains a b = false → (b <:+: a) = False := fun a b h =>
    eq_false (fun h' => by rw [contains_iff.2 h'] at h; simp at h)
  have h0 : F32.feq bpm 0 = decide (bpm = 0) := by
    unfold feq
    by_cases h : bpm = 0
    · subst h; decide +kernel
    · simp [h]
  refine ⟨?_, ?_, ?_, ?_, ?_, rfl⟩
  · rw [mem_warnings hf (by decide +kernel) (by decide +kernel)]
    rw [ev _ _ (by decide +kernel), ev' _ _ (by decide +kernel), ev' _ _ (by decide +kernel),
      ev' _ _ (by decide +kernel), ev' _ _ (by decide +kernel), ev' _ _ (by decide +kernel), ev' _ _ (by decide +kernel)]
    simp
  · rw [mem_warnings hf (by decide +kernel) (by decide +kernel)]
    rw [ev' _ _ (by decide +kernel), ev _ _ (by decide +kernel), ev' _ _ (by decide +kernel),
      ev' _ _ (by decide +kernel), ev' _ _ (by decide +kernel), ev' _ _ (by decide +kernel), ev' _ _ (by decide +kernel)]
    simp
  · rw [mem_warnings hf (by decide +kernel) (by decide +kernel)]
    rw [ev' _ _ (by decide +kernel), ev' _ _ (by decide +kernel), ev' _ _ (by decide +kernel),
      ev _ _ (by decide +kernel), ev' _ _ (by decide +kernel), ev' _ _ (by decide +kernel), ev' _ _ (by decide +kernel)]
    simp
  · rw [mem_warnings hf (by decide +kernel) (by decide +kernel)]
    rw [ev' _ _ (by decide +kernel), ev' _ _ (by decide +kernel), ev' _ _ (by decide +kernel),
      ev' _ _ (by decide +kernel), ev' _ _ (by decide +kernel), ev _ _ (by decide +kernel), ev' _ _ (by decide +kernel)]
    simp
  · show (warnings fmt bpm stab kconf clar).1.length = _
    unfold warnings
    rw [h0]
    simp only [List.length_append, decide_eq_true_eq, apply_ite List.length, List.length_cons, List.length_nil]

/-- **C52**, penalties: how `compute_confidence` treats a result of `analyze_audio`.  The BPM warning never costs
anything beyond the zero it already implies; the key score is scaled by the clarity factor and by 0.7 exactly when
the key-confidence or the clarity warning was attached. -/
theorem C52_penalties (fmt : F32 → List Char) (hf : ∀ x, NumberText (fmt x)) (bpm bconf kconf clar stab : F32) :
    let s := Confidence.computeConfidence (result fmt bpm bconf kconf clar stab)
    s.bpm = (if bpm ≤ 0 then 0 else F32.clamp bconf 0 1) ∧
    s.key = (if kconf ≤ 0 then 0 else
      F32.clamp kconf 0 1 * (if clar < 0.2 then 0.6 else if clar < 0.5 then 0.85 else 1) *
        (if kconf < 0.3 ∨ clar < 0.2 then 0.7 else 1)) := by
  have hw := C52_warnings fmt hf bpm stab kconf clar
  constructor
  · show Confidence.bpmConfidence _ = _
    unfold Confidence.bpmConfidence result
    dsimp only
    by_cases h : bpm ≤ 0
    · rw [if_pos h, if_pos h]
    · rw [if_neg h, if_neg h, if_neg]
      rw [List.any_eq_true]
      rintro ⟨w, h1, h2⟩
      have := hw.1.1 ⟨w, h1, contains_iff.1 h2⟩
      rw [this] at h
      exact h unit0.1
  · show Confidence.keyConfidence _ = _
    unfold Confidence.keyConfidence result
    dsimp only
    by_cases h : kconf ≤ 0
    · rw [if_pos h, if_pos h]
    · rw [if_neg h, if_neg h]
      congr 1
      have ev : ∀ (a b : List Char), Confidence.contains a b = true → (b <:+: a) = True := fun a b h =>
        eq_true (contains_iff.1 h)
      have ev' : ∀ (a b : List Char), Confidence.contains a b = false → (b <:+: a) = False := fun a b h =>
        eq_false (fun h' => by rw [contains_iff.2 h'] at h; simp at h)
      have hk : ((warnings fmt bpm stab kconf clar).1.any fun w => Confidence.contains w "key".toList ||
          Confidence.contains w "Key".toList || Confidence.contains w "tonality".toList) = true ↔
          (kconf < 0.3 ∨ clar < 0.2) := by
        have a1 : (∃ w ∈ (warnings fmt bpm stab kconf clar).1, "key".toList <:+: w) ↔ (kconf < 0.3 ∨ clar < 0.2) := by
          rw [mem_warnings hf (by decide +kernel) (by decide +kernel)]
          rw [ev' _ _ (by decide +kernel), ev' _ _ (by decide +kernel), ev' _ _ (by decide +kernel),
            ev _ _ (by decide +kernel), ev' _ _ (by decide +kernel), ev _ _ (by decide +kernel),
            ev' _ _ (by decide +kernel)]
          simp
        have a2 : (∃ w ∈ (warnings fmt bpm stab kconf clar).1, "Key".toList <:+: w) → False := by
          rw [mem_warnings hf (by decide +kernel) (by decide +kernel)]
          rw [ev' _ _ (by decide +kernel), ev' _ _ (by decide +kernel), ev' _ _ (by decide +kernel),
            ev' _ _ (by decide +kernel), ev' _ _ (by decide +kernel), ev' _ _ (by decide +kernel),
            ev' _ _ (by decide +kernel)]
          simp
        have a3 : (∃ w ∈ (warnings fmt bpm stab kconf clar).1, "tonality".toList <:+: w) → clar < 0.2 := by
          rw [mem_warnings hf (by decide +kernel) (by decide +kernel)]
          rw [ev' _ _ (by decide +kernel), ev' _ _ (by decide +kernel), ev' _ _ (by decide +kernel),
            ev' _ _ (by decide +kernel), ev' _ _ (by decide +kernel), ev' _ _ (by decide +kernel),
            ev _ _ (by decide +kernel)]
          simp
        rw [List.any_eq_true]
        constructor
        · rintro ⟨w, h1, h2⟩
          simp only [Bool.or_eq_true, contains_iff] at h2
          rcases h2 with (h2 | h2) | h2
          · exact a1.1 ⟨w, h1, h2⟩
          · exact (a2 ⟨w, h1, h2⟩).elim
          · exact Or.inr (a3 ⟨w, h1, h2⟩)
        · intro h
          obtain ⟨w, h1, h2⟩ := a1.2 h
          exact ⟨w, h1, by simp only [Bool.or_eq_true, contains_iff]; exact Or.inl (Or.inl h2)⟩
      by_cases hh : kconf < 0.3 ∨ clar < 0.2
      · rw [if_pos (hk.2 hh), if_pos hh]
      · rw [if_neg (fun h => hh (hk.1 h)), if_neg hh]

/-- a formatter that satisfies the hypothesis, and an outcome with three warnings -/
example : (∀ x : F32, NumberText ((fun _ => "0.25".toList) x)) ∧
    (warnings (fun _ => "0.25".toList) 0 0.9 0.25 0.1).1.length = 3 ∧
    (warnings (fun _ => "0.25".toList) 0 0.9 0.25 0.1).2 = [.weakTonality] := by
  refine ⟨fun _ => (by decide +kernel : ∀ c ∈ "0.25".toList, c ∈ "-.0123456789NaNinf".toList), by decide +kernel, by decide +kernel⟩

/-! ### C53 -/

/-- **C53**, conversion: exactly the sample positions `f * hop` inside the signal, strictly increasing. -/
theorem C53_to_samples (frames : List ℕ) (hop n : ℕ) (hn : n ≤ usizeMax) :
    (toSamples frames hop n).Pairwise (· < ·) ∧
    ∀ s, s ∈ toSamples frames hop n ↔ s < n ∧ ∃ f ∈ frames, f * hop = s := by
  unfold toSamples
  refine ⟨dedupAdj_strict (sortNat_pairwise _), ?_⟩
  intro s
  rw [mem_dedupAdj, (sortNat_perm _).mem_iff, List.mem_filter, List.mem_map]
  simp only [decide_eq_true_eq]
  unfold satMul
  constructor
  · rintro ⟨⟨f, hf, h⟩, hs⟩
    refine ⟨hs, f, hf, ?_⟩
    split_ifs at h with h1
    · exact h
    · omega
  · rintro ⟨hs, f, hf, h⟩
    refine ⟨⟨f, hf, ?_⟩, hs⟩
    rw [if_pos (by omega)]
    exact h

/-- **C53**, choice: the onsets handed to the legacy estimator and the beat tracker are strictly increasing, are
positions of clusters voted by at least two methods whenever there is one, of any cluster otherwise, and the
energy-flux onsets only when voting failed or found nothing. -/
theorem C53_choice (energy : List ℕ) (voted : Option (List Consensus.Candidate))
    (he : energy.Pairwise (· < ·)) :
    (chooseOnsets energy voted).Pairwise (· < ·) ∧
    (voted = none ∨ voted = some [] → chooseOnsets energy voted = energy) ∧
    (∀ cs, voted = some cs → cs ≠ [] → chooseOnsets energy voted ≠ [] ∧
      ∀ s, s ∈ chooseOnsets energy voted ↔
        ∃ c ∈ cs, c.timeSamples = s ∧ ((∃ d ∈ cs, 2 ≤ d.votedBy) → 2 ≤ c.votedBy)) := by
  have key : ∀ l : List ℕ, (∀ s, s ∈ dedupAdj (sortNat l) ↔ s ∈ l) ∧ (dedupAdj (sortNat l)).Pairwise (· < ·) := by
    intro l
    exact ⟨fun s => by rw [mem_dedupAdj, (sortNat_perm _).mem_iff], dedupAdj_strict (sortNat_pairwise _)⟩
  have hnil : ∀ l : List ℕ, dedupAdj (sortNat l) = [] ↔ l = [] := by
    intro l
    simp only [List.eq_nil_iff_forall_not_mem, (key l).1]
  cases voted with
  | none => exact ⟨he, fun _ => rfl, by simp⟩
  | some cs =>
    unfold chooseOnsets
    dsimp only
    refine ⟨?_, ?_, ?_⟩
    · split_ifs
      · exact (key _).2
      · exact (key _).2
      · exact he
    · rintro (h | h)
      · simp at h
      · obtain rfl := Option.some.inj h
        simp [sortNat, rsort, dedupAdj]
    · intro cs' h hne
      obtain rfl := Option.some.inj h
      have hany : dedupAdj (sortNat (cs.map (·.timeSamples))) ≠ [] := by
        rw [Ne, hnil]; simpa using hne
      by_cases hs : ∃ d ∈ cs, 2 ≤ d.votedBy
      · have hst : dedupAdj (sortNat ((cs.filter (fun c => decide (2 ≤ c.votedBy))).map (·.timeSamples))) ≠ [] := by
          rw [Ne, hnil]
          obtain ⟨d, h1, h2⟩ := hs
          intro h
          rw [List.map_eq_nil_iff, List.filter_eq_nil_iff] at h
          exact h d h1 (by simpa using h2)
        rw [if_pos hst, if_pos hst]
        refine ⟨hst, fun s => ?_⟩
        rw [(key _).1, List.mem_map]
        simp only [List.mem_filter, decide_eq_true_eq]
        constructor
        · rintro ⟨c, ⟨h1, h2⟩, h3⟩; exact ⟨c, h1, h3, fun _ => h2⟩
        · rintro ⟨c, h1, h3, h2⟩; exact ⟨c, ⟨h1, h2 hs⟩, h3⟩
      · have hst : ¬ dedupAdj (sortNat ((cs.filter (fun c => decide (2 ≤ c.votedBy))).map (·.timeSamples))) ≠ [] := by
          rw [Ne, hnil, not_not, List.map_eq_nil_iff, List.filter_eq_nil_iff]
          intro c hc h
          exact hs ⟨c, hc, by simpa using h⟩
        rw [if_neg hst, if_pos hany]
        refine ⟨hany, fun s => ?_⟩
        rw [(key _).1, List.mem_map]
        constructor
        · rintro ⟨c, h1, h3⟩; exact ⟨c, h1, h3, fun h => absurd h hs⟩
        · rintro ⟨c, h1, h3, _⟩; exact ⟨c, h1, h3⟩

/-- non-vacuity: repeated, unordered, out-of-range and overflowing frames; a mixed vote -/
example : toSamples [3, 1, 3, 9, 2 ^ 63] 512 2000 = [512, 1536] ∧
    chooseOnsets [7] (some [⟨100, 0, 1, 1⟩, ⟨50, 0, 1, 2⟩]) = [50] ∧
    chooseOnsets [7] (some [⟨100, 0, 1, 1⟩, ⟨50, 0, 1, 1⟩]) = [50, 100] := by decide +kernel

end Verif.Props
