/-
Property theorem C86: when and how the tempogram estimate is replaced by the multi-resolution or the percussive one
(src/lib.rs lines 337-812).
-/
import Verif.Model.Analyze
import Verif.Props.MultiFuse
import Verif.Props.TempoEst
import Verif.Props.TempoTotal

namespace Verif.Props
open Verif Verif.Analyze Tempogram F32

theorem attempt_some {α} {r : R α} {a : α} (h : attempt r = .ok (some a)) : r = .ok a := by
  unfold attempt at h
  split at h
  · simpa using h
  · simp at h
  · simp at h

theorem attempt_none {α} {r : R α} (h : attempt r = .ok none) : ∃ k, r = R.err k := by
  unfold attempt at h
  split at h
  · simp at h
  · rename_i k; exact ⟨k, rfl⟩
  · simp at h

/-- what the multi-resolution pass can do -/
theorem afterMulti_cases {L : Lib} {c : Config} {x : List F32} {sr : ℕ} {amb : Bool} {b out : Period.Est × List CandDbg}
    {u : Bool} (h : afterMulti L c x sr amb b = .ok (out, u)) :
    (u = false ∧ out = b) ∨ (u = true ∧ amb = true ∧ mrBetter b.1 out.1 = true ∧
      MultiRes.fromSamples L.M L.sfft L.fft L.fuel x sr c.frame c.minBpm c.maxBpm c.bpmRes c.multiTopK c.multiW (some c.band) =
        .ok out) := by
  unfold afterMulti at h
  split_ifs at h with ha
  · obtain ⟨r, hr, h⟩ := R.bind_eq_ok.1 h
    rcases r with _ | mr
    · cases h; exact .inl ⟨rfl, rfl⟩
    · dsimp only at h
      split_ifs at h with hb
      · cases h; exact .inr ⟨rfl, ha, hb, attempt_some hr⟩
      · cases h; exact .inl ⟨rfl, rfl⟩
  · cases h; exact .inl ⟨rfl, rfl⟩

/-- what the percussive pass can do -/
theorem afterPerc_cases {L : Lib} {c : Config} {spec : List (List F32)} {sr n : ℕ} {need : Bool} {base : Period.Est}
    {b out : Period.Est × List CandDbg} {u : Option Bool} (h : afterPerc L c spec sr n need base b = .ok (out, u)) :
    (c.enablePercussive = false ∧ u = none ∧ out = b) ∨
    (c.enablePercussive = true ∧ u = some false ∧ out = b) ∨
    (c.enablePercussive = true ∧ need = true ∧ u = some true ∧ percBetter base b.1 out.1 = true ∧
      ∃ hp, Onset.hpssDecompose spec c.hpssMargin = .ok hp ∧
        estimateCands L.M L.fft L.fuel hp.2 (tempoParams c sr) n (tempoBand c) = .ok out) := by
  unfold afterPerc at h
  by_cases he : c.enablePercussive = true
  · by_cases hn : need = true
    · rw [if_pos (by simp [he, hn])] at h
      obtain ⟨d, hd, h⟩ := R.bind_eq_ok.1 h
      rcases d with _ | hp
      · cases h; exact .inr (.inl ⟨he, rfl, rfl⟩)
      · obtain ⟨p, hp', h⟩ := R.bind_eq_ok.1 h
        rcases p with _ | pe
        · cases h; exact .inr (.inl ⟨he, rfl, rfl⟩)
        · dsimp only at h
          split_ifs at h with hb
          · cases h; exact .inr (.inr ⟨he, hn, rfl, hb, hp, attempt_some hd, attempt_some hp'⟩)
          · cases h; exact .inr (.inl ⟨he, rfl, rfl⟩)
    · rw [if_neg (by simp [hn]), if_pos he] at h
      cases h; exact .inr (.inl ⟨he, rfl, rfl⟩)
  · rw [if_neg (by simp [he]), if_neg he] at h
    cases h; exact .inl ⟨by simpa using he, rfl, rfl⟩

/-- the run of the escalating branch, step by step -/
theorem tempoMulti_cases {L : Lib} {c : Config} {x : List F32} {spec : List (List F32)} {sr : ℕ} {t : Tempo}
    (h : tempoMulti L c x spec sr = .ok t) :
    (t = ⟨none, none, none, none, none, none⟩ ∧
      ∃ k, estimateCands L.M L.fft L.fuel spec (tempoParams c sr) (Nat.max (Nat.max c.candsTopN c.multiTopK) 10) (tempoBand c) = R.err k) ∨
    ∃ b chosen final : Period.Est × List CandDbg, ∃ u uP,
      estimateCands L.M L.fft L.fuel spec (tempoParams c sr) (Nat.max (Nat.max c.candsTopN c.multiTopK) 10) (tempoBand c) = .ok b ∧
      afterMulti L c x sr (ambiguous c.bpmRes b.1 b.2) b = .ok (chosen, u) ∧
      afterPerc L c spec sr (Nat.max (Nat.max c.candsTopN c.multiTopK) 10) (ambiguous c.bpmRes b.1 b.2 && trapLow b.1.bpm) b.1 chosen =
        .ok (final, uP) ∧
      t = ⟨some final.1, if c.emitCands then some final.2 else none, some (ambiguous c.bpmRes b.1 b.2), some u,
        some (ambiguous c.bpmRes b.1 b.2 && trapLow b.1.bpm), uP⟩ := by
  unfold tempoMulti at h
  obtain ⟨r, hr, h⟩ := R.bind_eq_ok.1 h
  rcases r with _ | b
  · cases h; exact .inl ⟨rfl, attempt_none hr⟩
  · obtain ⟨⟨chosen, u⟩, h1, h⟩ := R.bind_eq_ok.1 h
    obtain ⟨⟨final, uP⟩, h2, h⟩ := R.bind_eq_ok.1 h
    cases h
    exact .inr ⟨b, chosen, final, u, uP, attempt_some hr, h1, h2, rfl⟩

/-- **C86 (flags).** The four `tempogram_*` flags of the metadata are consistent with each other and with the
configuration: a pass is only reported as used if it was triggered, the percussive pass is only triggered together with
the multi-resolution one, flags are absent when their feature is off, and candidates are only emitted on request. -/
theorem C86_flags (L : Lib) (c : Config) (x : List F32) (spec : List (List F32)) (sr : ℕ) (t : Tempo)
    (h : tempo L c x spec sr = .ok t) :
    (t.mrUsed = some true → t.mrTriggered = some true) ∧
    (t.percUsed = some true → t.percTriggered = some true) ∧
    (t.percTriggered = some true → t.mrTriggered = some true) ∧
    (t.mrTriggered.isSome = t.mrUsed.isSome ∧ t.mrTriggered.isSome = t.percTriggered.isSome) ∧
    (c.forceLegacy = true ∨ spec = [] → t.est = none ∧ t.mrTriggered = none ∧ t.cands = none) ∧
    (c.enableMultiRes = false → t.mrTriggered = none ∧ t.percUsed = none) ∧
    (t.percUsed.isSome = true ↔ c.enablePercussive = true ∧ t.mrTriggered.isSome = true) ∧
    (t.cands.isSome = true ↔ c.emitCands = true ∧ t.est.isSome = true) := by
  unfold tempo at h
  by_cases h1 : (!c.forceLegacy && decide (spec ≠ [])) = true
  · have hn : ¬ (c.forceLegacy = true ∨ spec = []) := by
      simp only [Bool.and_eq_true, Bool.not_eq_true', decide_eq_true_eq] at h1
      rintro (h | h)
      · rw [h1.1] at h; simp at h
      · exact h1.2 h
    rw [if_pos h1] at h
    by_cases h2 : c.enableMultiRes = true
    · rw [if_pos h2] at h
      rcases tempoMulti_cases h with ⟨rfl, _⟩ | ⟨b, chosen, final, u, uP, e0, e1, e2, rfl⟩
      · simp [h2]
      · have a1 : u = true → ambiguous c.bpmRes b.1 b.2 = true := by
          rintro rfl
          rcases afterMulti_cases e1 with ⟨h, _⟩ | ⟨_, h, _⟩
          · simp at h
          · exact h
        refine ⟨?_, ?_, ?_, ⟨rfl, rfl⟩, fun h => absurd h hn, fun h => by rw [h2] at h; simp at h, ?_, ?_⟩
        · intro h; rw [a1 (by simpa using h)]
        · intro h
          rcases afterPerc_cases e2 with ⟨_, h', _⟩ | ⟨_, h', _⟩ | ⟨_, h', _⟩
          · subst h'; simp at h
          · subst h'; simp at h
          · simp only at h' ⊢; rw [h']
        · intro h
          simp only [Option.some.injEq, Bool.and_eq_true] at h ⊢
          exact h.1
        · rcases afterPerc_cases e2 with ⟨h', rfl, _⟩ | ⟨h', rfl, _⟩ | ⟨h', _, rfl, _⟩ <;> simp [h']
        · by_cases h' : c.emitCands = true <;> simp [h']
    · rw [if_neg h2] at h
      by_cases h3 : c.emitCands = true
      · rw [if_pos h3] at h
        obtain ⟨r, _, h⟩ := R.bind_eq_ok.1 h
        cases h
        rcases r with _ | r <;> simp [hn, h3]
      · rw [if_neg h3] at h
        obtain ⟨r, _, h⟩ := R.bind_eq_ok.1 h
        cases h
        rcases r with _ | r <;> simp [hn, h3]
  · rw [if_neg h1] at h
    cases h
    simp

/-- a factor below 1 lowers a score -/
theorem scaled_le {x y : F32} (h0 : 0 ≤ x) (h1 : x ≤ 1) (y0 : 0 ≤ y) (y1 : y ≤ 1) : 0 ≤ x * y ∧ x * y ≤ x ∧ x * y ≤ 1 := by
  have := mul_le_of_le_one h0 y0 y1 (isFinite_of_unit h0 h1)
  exact ⟨this.1, this.2, F32.le_trans this.2 h1⟩

theorem scaled_mono {a b y : F32} (h0 : 0 ≤ a) (h : a ≤ b) (h1 : b ≤ 1) (y0 : 0 ≤ y) (y1 : y ≤ 1) : a * y ≤ b * y :=
  F32.mul_le_mul_of_nonneg_right h y0 (ne_nan_right (scaled_le h0 (F32.le_trans h h1) y0 y1).1)
    (ne_nan_right (scaled_le (F32.le_trans h0 h) h1 y0 y1).1)

theorem scaled_mono_left {x y z : F32} (h0 : 0 ≤ x) (h1 : x ≤ 1) (y0 : 0 ≤ y) (h : y ≤ z) (z1 : z ≤ 1) : x * y ≤ x * z :=
  F32.mul_le_mul_of_nonneg_left h h0 (ne_nan_right (scaled_le h0 h1 y0 (F32.le_trans h z1)).1)
    (ne_nan_right (scaled_le h0 h1 (F32.le_trans y0 h) z1).1)

theorem not_nan_le (x : F32) : ¬ (nan ≤ x) := fun h => ne_nan_left h rfl

/-- the multi-resolution estimate does not promote the tempo above 180 and does not let the confidence collapse -/
theorem mrBetter_spec {b m : Period.Est} (hb : UnitOrNaN b.conf) (h : mrBetter b m = true) :
    ¬ (b.bpm ≤ 180 ∧ 180 < m.bpm) ∧ (0 ≤ b.conf ∧ b.conf ≤ 1) ∧ b.conf * 0.88 ≤ m.conf := by
  unfold mrBetter at h
  simp only [Bool.and_eq_true, Bool.not_eq_true', Bool.or_eq_true, decide_eq_true_eq] at h
  obtain ⟨hf, hc⟩ := h
  have hu : 0 ≤ b.conf ∧ b.conf ≤ 1 := by
    rcases hb with e | e
    · rw [e] at hc
      rcases hc with (h | h) | h
      · exact absurd h (by rw [nan_add]; exact not_nan_le _)
      · exact absurd h.2 (by rw [nan_mul]; exact not_nan_le _)
      · exact absurd h.1.2 (by rw [nan_mul]; exact not_nan_le _)
    · exact e
  obtain ⟨h0, h1⟩ := hu
  refine ⟨fun h => ?_, ⟨h0, h1⟩, ?_⟩
  · rw [decide_eq_true h.1, decide_eq_true h.2] at hf; simp at hf
  · rcases hc with (h | h) | h
    · exact F32.le_trans (scaled_le (y := 0.88) h0 h1 (by decide +kernel) (by decide +kernel)).2.1
        (F32.le_trans (le_add_right (b := 0.05) h0 (by decide +kernel)) h)
    · exact F32.le_trans (scaled_mono_left (y := 0.88) (z := 0.90) h0 h1 (by decide +kernel) (by decide +kernel) (by decide +kernel)) h.2
    · exact h.1.2

/-- the percussive estimate is in the common range and does not let the confidence collapse -/
theorem percBetter_spec {b m p : Period.Est} (hm : UnitOrNaN m.conf) (h : percBetter b m p = true) :
    70 ≤ p.bpm ∧ p.bpm ≤ 180 ∧ (0 ≤ m.conf ∧ m.conf ≤ 1) ∧ m.conf * 0.85 ≤ p.conf := by
  unfold percBetter at h
  simp only [Bool.and_eq_true, Bool.not_eq_true', Bool.or_eq_true, decide_eq_true_eq] at h
  obtain ⟨⟨_, hr⟩, hc⟩ := h
  have hu : 0 ≤ m.conf ∧ m.conf ≤ 1 := by
    rcases hm with e | e
    · rw [e] at hc
      rcases hc with (h | h) | h
      · exact absurd h (by rw [nan_add]; exact not_nan_le _)
      · exact absurd h.2 (by rw [nan_mul]; exact not_nan_le _)
      · exact absurd h.2 (by rw [nan_mul]; exact not_nan_le _)
    · exact e
  obtain ⟨h0, h1⟩ := hu
  refine ⟨hr.1, hr.2, ⟨h0, h1⟩, ?_⟩
  rcases hc with (h | h) | h
  · exact F32.le_trans (scaled_le (y := 0.85) h0 h1 (by decide +kernel) (by decide +kernel)).2.1
      (F32.le_trans (le_add_right (b := 0.04) h0 (by decide +kernel)) h)
  · exact h.2
  · exact F32.le_trans (scaled_mono_left (y := 0.85) (z := 0.92) h0 h1 (by decide +kernel) (by decide +kernel) (by decide +kernel)) h.2

/-- **C86 (policy).** With the multi-resolution branch on, the estimate is the base estimate unless a flag says
otherwise; then it is what the multi-resolution pass, or the percussive pass on a base of 55-80 BPM, returned.  A base of
at most 180 BPM is never promoted above 180, and the confidence never falls below `0.88 * 0.85` of the base's. -/
theorem C86_policy (L : Lib) (c : Config) (x : List F32) (spec : List (List F32)) (sr : ℕ) (t : Tempo) (e : Period.Est)
    (hf : c.forceLegacy = false) (hs : spec ≠ []) (hm : c.enableMultiRes = true) (h : tempo L c x spec sr = .ok t)
    (he : t.est = some e) :
    ∃ base cands, estimateCands L.M L.fft L.fuel spec (tempoParams c sr) (Nat.max (Nat.max c.candsTopN c.multiTopK) 10)
        (tempoBand c) = .ok (base, cands) ∧
      (t.mrUsed ≠ some true → t.percUsed ≠ some true → e = base) ∧
      (t.mrUsed = some true → t.percUsed ≠ some true → ∃ cs,
        MultiRes.fromSamples L.M L.sfft L.fft L.fuel x sr c.frame c.minBpm c.maxBpm c.bpmRes c.multiTopK c.multiW (some c.band) =
          .ok (e, cs)) ∧
      (t.percUsed = some true → (55 ≤ base.bpm ∧ base.bpm ≤ 80) ∧ (70 ≤ e.bpm ∧ e.bpm ≤ 180) ∧
        ∃ hp cs, Onset.hpssDecompose spec c.hpssMargin = .ok hp ∧ estimateCands L.M L.fft L.fuel hp.2 (tempoParams c sr)
          (Nat.max (Nat.max c.candsTopN c.multiTopK) 10) (tempoBand c) = .ok (e, cs)) ∧
      (t.percTriggered = some true → 55 ≤ base.bpm ∧ base.bpm ≤ 80) ∧
      (base.bpm ≤ 180 → ¬ 180 < e.bpm) ∧
      (e = base ∨ base.conf * 0.88 * 0.85 ≤ e.conf) := by
  unfold tempo at h
  rw [if_pos (by simp [hf, hs]), if_pos hm] at h
  rcases tempoMulti_cases h with ⟨rfl, _⟩ | ⟨b, chosen, final, u, uP, e0, e1, e2, rfl⟩
  · simp at he
  simp only [Option.some.injEq] at he
  subst he
  have hbU : UnitOrNaN b.1.conf := ((C21_range L.M L.fft L.fuel spec (tempoParams c sr) (tempoBand c) _).2 b.1 b.2 e0).2.1
  have hlow : (ambiguous c.bpmRes b.1 b.2 && trapLow b.1.bpm) = true → 55 ≤ b.1.bpm ∧ b.1.bpm ≤ 80 := by
    intro h'
    simp only [trapLow, Bool.and_eq_true, decide_eq_true_eq] at h'
    exact h'.2
  have hch : (¬ u = true → chosen = b) ∧ (u = true →
      ¬ (b.1.bpm ≤ 180 ∧ 180 < chosen.1.bpm) ∧ (0 ≤ b.1.conf ∧ b.1.conf ≤ 1) ∧ b.1.conf * 0.88 ≤ chosen.1.conf ∧
      MultiRes.fromSamples L.M L.sfft L.fft L.fuel x sr c.frame c.minBpm c.maxBpm c.bpmRes c.multiTopK c.multiW (some c.band) =
        .ok chosen) := by
    rcases afterMulti_cases e1 with ⟨rfl, rfl⟩ | ⟨rfl, _, hb, hr⟩
    · exact ⟨fun _ => rfl, fun h => by simp at h⟩
    · refine ⟨fun h => by simp at h, fun _ => ?_⟩
      obtain ⟨q1, q2, q3⟩ := mrBetter_spec hbU hb
      exact ⟨q1, q2, q3, hr⟩
  have hpromo : b.1.bpm ≤ 180 → ¬ 180 < chosen.1.bpm := by
    intro h' h''
    by_cases hu : u = true
    · exact (hch.2 hu).1 ⟨h', h''⟩
    · rw [hch.1 hu] at h''; exact not_lt_of_le h' h''
  have hkeep : chosen.1 = b.1 ∨ b.1.conf * 0.88 * 0.85 ≤ chosen.1.conf := by
    by_cases hu : u = true
    · right
      obtain ⟨_, ⟨h0, h1⟩, hc, _⟩ := hch.2 hu
      have := scaled_le (y := 0.88) h0 h1 (by decide +kernel) (by decide +kernel)
      exact F32.le_trans (scaled_le (y := 0.85) this.1 this.2.2 (by decide +kernel) (by decide +kernel)).2.1 hc
    · left; rw [hch.1 hu]
  refine ⟨b.1, b.2, e0, ?_⟩
  rcases afterPerc_cases e2 with ⟨_, rfl, rfl⟩ | ⟨_, rfl, rfl⟩ | ⟨_, hn, rfl, hb, hp, hd, hr⟩
  · refine ⟨fun h' _ => ?_, fun h' _ => ⟨final.2, ?_⟩, fun h' => by simp at h', fun h' => hlow (by simpa using h'), hpromo, hkeep⟩
    · rw [hch.1 (by simpa using h')]
    · exact (hch.2 (by simpa using h')).2.2.2
  · refine ⟨fun h' _ => ?_, fun h' _ => ⟨final.2, ?_⟩, fun h' => by simp at h', fun h' => hlow (by simpa using h'), hpromo, hkeep⟩
    · rw [hch.1 (by simpa using h')]
    · exact (hch.2 (by simpa using h')).2.2.2
  · have hcU : UnitOrNaN chosen.1.conf := by
      by_cases hu : u = true
      · exact (C24_range_partial _ _ _ _ _ _ _ _ _ _ _ _ _ _ _ (hch.2 hu).2.2.2).2.1
      · rw [hch.1 hu]; exact hbU
    obtain ⟨p1, p2, ⟨m0, m1⟩, p3⟩ := percBetter_spec hcU hb
    refine ⟨fun _ h' => by simp at h', fun _ h' => by simp at h', fun _ => ⟨hlow hn, ⟨p1, p2⟩, hp, final.2, hd, hr⟩,
      fun _ => hlow hn, fun _ h' => not_lt_of_le p2 h', .inr ?_⟩
    refine F32.le_trans ?_ p3
    by_cases hu : u = true
    · obtain ⟨_, ⟨h0, h1⟩, hc, _⟩ := hch.2 hu
      have := scaled_le (y := 0.88) h0 h1 (by decide +kernel) (by decide +kernel)
      exact scaled_mono this.1 hc m1 (by decide +kernel) (by decide +kernel)
    · rw [hch.1 hu] at m0 m1 ⊢
      have := scaled_le (y := 0.88) m0 m1 (by decide +kernel) (by decide +kernel)
      exact scaled_mono this.1 this.2.1 m1 (by decide +kernel) (by decide +kernel)

/-- specification: the larger of the two quotients of the tempos is within 0.05 of an octave, a fifth or a fourth -/
def RelatedTempo (m p : F32) : Prop :=
  (1e-6 : F32) < m ∧ ∃ r ∈ [(2 : F32), 1.5, 4 / 3, 3 / 2, 2 / 3, 3 / 4], (F32.max (p / m) (m / p) - r).abs < 0.05

theorem percBetter_related {b m p : Period.Est} (h : percBetter b m p = true) : RelatedTempo m.bpm p.bpm := by
  unfold percBetter at h
  simp only [Bool.and_eq_true, Bool.not_eq_true', Bool.or_eq_true] at h
  have hf := h.1.1.2
  simp only [closeTo, decide_eq_true_eq] at hf
  by_cases hm : (1e-6 : F32) < m.bpm
  · refine ⟨hm, ?_⟩
    unfold ratio at hf
    rw [if_pos hm] at hf
    rcases hf with ((((h | h) | h) | h) | h) | h
    · exact ⟨_, by simp, h⟩
    · exact ⟨_, List.mem_cons_of_mem _ (List.mem_cons_self ..), h⟩
    · exact ⟨_, List.mem_cons_of_mem _ (List.mem_cons_of_mem _ (List.mem_cons_self ..)), h⟩
    · exact ⟨_, List.mem_cons_of_mem _ (List.mem_cons_of_mem _ (List.mem_cons_of_mem _ (List.mem_cons_self ..))), h⟩
    · exact ⟨_, List.mem_cons_of_mem _ (List.mem_cons_of_mem _ (List.mem_cons_of_mem _ (List.mem_cons_of_mem _
        (List.mem_cons_self ..)))), h⟩
    · exact ⟨_, List.mem_cons_of_mem _ (List.mem_cons_of_mem _ (List.mem_cons_of_mem _ (List.mem_cons_of_mem _
        (List.mem_cons_of_mem _ (List.mem_cons_self ..))))), h⟩
  · unfold ratio at hf
    rw [if_neg hm] at hf
    exact absurd hf (by decide +kernel)

/-- **C86 (percussive switch).** A percussive estimate is only taken when its tempo stands in a simple ratio to the tempo
it replaces: the multi-resolution estimate where that was used, else the base. -/
theorem C86_related (L : Lib) (c : Config) (x : List F32) (spec : List (List F32)) (sr : ℕ) (t : Tempo) (e : Period.Est)
    (hf : c.forceLegacy = false) (hs : spec ≠ []) (hm : c.enableMultiRes = true) (h : tempo L c x spec sr = .ok t)
    (he : t.est = some e) (hp : t.percUsed = some true) :
    ∃ old : Period.Est, RelatedTempo old.bpm e.bpm ∧
      ((t.mrUsed ≠ some true ∧ ∃ cands, estimateCands L.M L.fft L.fuel spec (tempoParams c sr)
          (Nat.max (Nat.max c.candsTopN c.multiTopK) 10) (tempoBand c) = .ok (old, cands)) ∨
       (t.mrUsed = some true ∧ ∃ cs, MultiRes.fromSamples L.M L.sfft L.fft L.fuel x sr c.frame c.minBpm c.maxBpm c.bpmRes
          c.multiTopK c.multiW (some c.band) = .ok (old, cs))) := by
  unfold tempo at h
  rw [if_pos (by simp [hf, hs]), if_pos hm] at h
  rcases tempoMulti_cases h with ⟨rfl, _⟩ | ⟨b, chosen, final, u, uP, e0, e1, e2, rfl⟩
  · simp at he
  simp only [Option.some.injEq] at he
  subst he
  rcases afterPerc_cases e2 with ⟨_, rfl, rfl⟩ | ⟨_, rfl, rfl⟩ | ⟨_, hn, rfl, hb, _⟩
  · simp at hp
  · simp at hp
  · refine ⟨chosen.1, percBetter_related hb, ?_⟩
    rcases afterMulti_cases e1 with ⟨rfl, rfl⟩ | ⟨rfl, _, _, hr⟩
    · exact .inl ⟨by simp, chosen.2, e0⟩
    · exact .inr ⟨by simp, chosen.2, hr⟩

-- 120 may replace 60 or 80, but not 100
example : RelatedTempo 60 120 ∧ RelatedTempo 80 120 ∧ ¬ RelatedTempo 100 120 := by
  unfold RelatedTempo
  decide +kernel

/-! ### When the escalation is triggered -/

/-- a tempo candidate within `tol` of `bpm` -/
def NearBpm (tol bpm : F32) (d : CandDbg) : Prop := (d.bpm - bpm).abs ≤ tol

theorem candSupport_spec (cands : List CandDbg) (bpm tol : F32) :
    0 ≤ candSupport cands bpm tol ∧
    (candSupport cands bpm tol = 0 ∨ ∃ d ∈ cands, NearBpm tol bpm d ∧ d.score = candSupport cands bpm tol) ∧
    ∀ d ∈ cands, NearBpm tol bpm d → d.score ≠ nan → d.score ≤ candSupport cands bpm tol := by
  unfold candSupport
  have key : ∀ (l : List CandDbg) (acc : F32), 0 ≤ acc →
      (acc ≤ l.foldl (fun best c => if (c.bpm - bpm).abs ≤ tol then F32.max best c.score else best) acc) ∧
      (l.foldl (fun best c => if (c.bpm - bpm).abs ≤ tol then F32.max best c.score else best) acc = acc ∨
        ∃ d ∈ l, NearBpm tol bpm d ∧ d.score = l.foldl (fun best c => if (c.bpm - bpm).abs ≤ tol then F32.max best c.score else best) acc) ∧
      ∀ d ∈ l, NearBpm tol bpm d → d.score ≠ nan →
        d.score ≤ l.foldl (fun best c => if (c.bpm - bpm).abs ≤ tol then F32.max best c.score else best) acc := by
    intro l
    induction l with
    | nil => intro acc h; exact ⟨F32.le_refl (ne_nan_right h), .inl rfl, by simp⟩
    | cons d l ih =>
      intro acc h
      rw [List.foldl_cons]
      by_cases hd : (d.bpm - bpm).abs ≤ tol
      · rw [if_pos hd]
        have hle : acc ≤ F32.max acc d.score := F32.le_max_left (ne_nan_right h)
        obtain ⟨i1, i2, i3⟩ := ih (F32.max acc d.score) (F32.le_trans h hle)
        refine ⟨F32.le_trans hle i1, ?_, ?_⟩
        · rcases i2 with i2 | ⟨d', h1, h2, h3⟩
          · rw [i2]
            rcases max_eq_left_or_right acc d.score with e | e
            · exact .inl e
            · exact .inr ⟨d, by simp, hd, e.symm⟩
          · exact .inr ⟨d', by simp [h1], h2, h3⟩
        · intro d' hd' hn hnan
          rcases List.mem_cons.1 hd' with rfl | hd'
          · exact F32.le_trans (F32.le_max_right hnan) i1
          · exact i3 d' hd' hn hnan
      · rw [if_neg hd]
        obtain ⟨i1, i2, i3⟩ := ih acc h
        refine ⟨i1, ?_, ?_⟩
        · rcases i2 with i2 | ⟨d', h1, h2, h3⟩
          · exact .inl i2
          · exact .inr ⟨d', by simp [h1], h2, h3⟩
        · intro d' hd' hn hnan
          rcases List.mem_cons.1 hd' with rfl | hd'
          · exact absurd hn hd
          · exact i3 d' hd' hn hnan
  exact key cands 0 (by decide +kernel)

/-- the candidate list contains a serious competitor at `other`: one with a positive score that reaches 90 % of every
candidate near `bpm` -/
def Competitor (tol bpm other : F32) (cands : List CandDbg) : Prop :=
  ∃ d ∈ cands, NearBpm tol other d ∧ 0 < d.score ∧
    ∀ d' ∈ cands, NearBpm tol bpm d' → d'.score ≠ nan → d'.score * 0.90 ≤ d.score

theorem scaled_ne_nan {a : F32} (h : a ≠ nan) : a * 0.90 ≠ nan := by
  rcases a with _ | s | ⟨q, hq⟩
  · exact absurd rfl h
  · cases s <;> decide +kernel
  · exact mul_fin_ne_nan rfl (by decide +kernel)

theorem scale_le {a b : F32} (h : a ≤ b) : a * 0.90 ≤ b * 0.90 :=
  F32.mul_le_mul_of_nonneg_right h (by decide +kernel) (scaled_ne_nan (ne_nan_left h)) (scaled_ne_nan (ne_nan_right h))

theorem competes_iff (cands : List CandDbg) (tol bpm other : F32) :
    (0 < candSupport cands other tol ∧ candSupport cands bpm tol * 0.90 ≤ candSupport cands other tol) ↔
      Competitor tol bpm other cands := by
  obtain ⟨a0, a1, a2⟩ := candSupport_spec cands bpm tol
  obtain ⟨b0, b1, b2⟩ := candSupport_spec cands other tol
  constructor
  · rintro ⟨h0, h1⟩
    rcases b1 with b1 | ⟨d, hd, hn, hs⟩
    · rw [b1] at h0; exact absurd h0 (lt_irrefl _)
    · refine ⟨d, hd, hn, hs ▸ h0, fun d' hd' hn' hnan => ?_⟩
      rw [hs]
      exact F32.le_trans (scale_le (a2 d' hd' hn' hnan)) h1
  · rintro ⟨d, hd, hn, hs, hall⟩
    have hle := b2 d hd hn (by rintro e; rw [e] at hs; exact absurd rfl (ne_nan_right (F32.le_of_lt hs)))
    refine ⟨lt_of_lt_of_le hs hle, ?_⟩
    rcases a1 with a1 | ⟨d', hd', hn', hs'⟩
    · rw [a1]
      exact F32.le_trans (by decide +kernel : (0 : F32) * 0.90 ≤ 0) b0
    · rw [← hs']
      exact F32.le_trans (hall d' hd' hn' (by rw [hs']; exact ne_nan_right a0)) hle

/-- **C86 (trigger).** The second pass runs exactly when the base tempo is in one of the two octave-trap zones, or a
candidate at double or half tempo rivals it, or it is weakly supported and folds into the upper zone; the percussive pass
exactly when, in addition, the base is in the lower zone. -/
theorem C86_trigger (L : Lib) (c : Config) (x : List F32) (spec : List (List F32)) (sr : ℕ) (t : Tempo) (base : Period.Est)
    (cands : List CandDbg) (hf : c.forceLegacy = false) (hs : spec ≠ []) (hm : c.enableMultiRes = true)
    (hb : estimateCands L.M L.fft L.fuel spec (tempoParams c sr) (Nat.max (Nat.max c.candsTopN c.multiTopK) 10) (tempoBand c) =
      .ok (base, cands)) (h : tempo L c x spec sr = .ok t) :
    (t.mrTriggered = some true ↔
      (55 ≤ base.bpm ∧ base.bpm ≤ 80) ∨ (170 ≤ base.bpm ∧ base.bpm ≤ 200) ∨
      Competitor (F32.max 2 c.bpmRes) base.bpm (base.bpm * 2) cands ∨ Competitor (F32.max 2 c.bpmRes) base.bpm (base.bpm * 0.5) cands ∨
      ((base.agreement = 0 ∨ base.conf < 0.06) ∧ 170 ≤ base.bpm * 2 ∧ base.bpm * 2 ≤ 200)) ∧
    (t.percTriggered = some true ↔ 55 ≤ base.bpm ∧ base.bpm ≤ 80) := by
  unfold tempo at h
  rw [if_pos (by simp [hf, hs]), if_pos hm] at h
  rcases tempoMulti_cases h with ⟨_, k, hk⟩ | ⟨b, chosen, final, u, uP, e0, e1, e2, rfl⟩
  · rw [hb] at hk; cases hk
  rw [hb] at e0
  cases e0
  constructor
  · simp only [Option.some.injEq]
    unfold ambiguous familyCompetes trapLow trapHigh
    simp only [Bool.or_eq_true, Bool.and_eq_true, decide_eq_true_eq, competes_iff, or_assoc]
  · simp only [Option.some.injEq, Bool.and_eq_true]
    unfold ambiguous
    simp only [Bool.or_eq_true, trapLow, Bool.and_eq_true, decide_eq_true_eq]
    exact ⟨fun h => h.2, fun h => ⟨.inl (.inl (.inl h)), h⟩⟩

/-! ### Examples -/

def clipLib : Lib :=
  ⟨rampLibm, fun l => l.map (fun x => (x, 0)), clipFft, fun _ _ => 0, fun x _ => x, fun _ l => l, id, id, fun _ => [], 20⟩

def hitConfig (maxB : F32) : Config :=
  { frame := 4, hop := 1, minBpm := 60, maxBpm := maxB, bpmRes := 60, band := threeBands 1, emitCands := true, enablePercussive := true }

def hitAudio : List F32 := [1, 0, 0, 0, 1, 0, 0, 0, 1, 0, 0, 0]

-- a base of 90 BPM, weakly supported and folding into the upper zone: the second pass is triggered (on so little audio
-- it returns an error, so the base is kept)
example : ∃ t e, tempo clipLib (hitConfig 240) hitAudio beatSpec 4 = .ok t ∧ t.est = some e ∧ e.bpm = 90 ∧
    t.mrTriggered = some true ∧ t.mrUsed = some false ∧ t.percTriggered = some false ∧
    ∃ base cands, estimateCands rampLibm clipFft 20 beatSpec (tempoParams (hitConfig 240) 4)
      (Nat.max (Nat.max (hitConfig 240).candsTopN (hitConfig 240).multiTopK) 10) (some (threeBands 1)) = .ok (base, cands) ∧ e = base := by
  have h : (match tempo clipLib (hitConfig 240) hitAudio beatSpec 4 with
    | .ok t => t.est.any (fun e => decide (e.bpm = 90)) && decide (t.mrTriggered = some true) && decide (t.mrUsed = some false) &&
        decide (t.percTriggered = some false) && decide (t.percUsed = some false)
    | _ => false) = true := by decide +kernel
  rcases ht : tempo clipLib (hitConfig 240) hitAudio beatSpec 4 with err | t
  · rw [ht] at h; simp at h
  rw [ht] at h
  simp only [Bool.and_eq_true, decide_eq_true_eq] at h
  obtain ⟨⟨⟨⟨h1, h2⟩, h3⟩, h4⟩, h5⟩ := h
  rcases he : t.est with _ | e
  · rw [he] at h1; simp at h1
  have h90 : e.bpm = 90 := by rw [he] at h1; simpa using h1
  refine ⟨t, e, rfl, he, h90, h2, h3, h4, ?_⟩
  obtain ⟨base, cands, hb, hkeep, _⟩ := C86_policy clipLib (hitConfig 240) hitAudio beatSpec 4 t e rfl (by decide) rfl ht he
  have hbase : e = base := hkeep (by rw [h3]; simp) (by rw [h5]; simp)
  exact ⟨base, cands, hb, hbase⟩

-- a candidate at 181 BPM with 91 % of the score rivals a base of 90 BPM, one with 80 % does not
example : Competitor 2 90 180 [⟨90, 1, 0, 0, true⟩, ⟨181, 0.91, 0, 0, false⟩] ∧
    ¬ Competitor 2 90 180 [⟨90, 1, 0, 0, true⟩, ⟨181, 0.8, 0, 0, false⟩] := by
  rw [← competes_iff, ← competes_iff]
  decide +kernel

-- a base of 60 BPM: both passes are triggered
example : (match tempo clipLib (hitConfig 70) hitAudio beatSpec 4 with
    | .ok t => decide (t.mrTriggered = some true) && decide (t.percTriggered = some true) && decide (t.percUsed = some false)
    | _ => false) = true := by decide +kernel

-- a multi-resolution estimate of 120 replaces a base of 60 when it is as confident, but 190 does not replace 95
example : mrBetter ⟨60, 0.5, 1⟩ ⟨120, 0.5, 1⟩ = true ∧
    mrBetter ⟨95, 0.1, 1⟩ ⟨190, 0.9, 1⟩ = false ∧
    percBetter ⟨60, 0.5, 1⟩ ⟨60, 0.5, 1⟩ ⟨120, 0.45, 1⟩ = true := by decide +kernel

end Verif.Props
