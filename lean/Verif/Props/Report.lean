/-
Property theorems C87-C89: what the result of `analyze_audio` can contain (src/lib.rs lines 814-1635).
-/
import Verif.Props.Escalate
import Verif.Props.Analyze
import Verif.Props.Pipeline
import Verif.Props.GridSafety
import Verif.Props.Consensus
import Verif.Props.Onset
import Verif.Props.LegacyBpm
import Verif.Props.KeyVariants

namespace Verif.Props
open Verif Verif.Analyze Verif.Keys Tempogram F32

/-! ### Taking the pipeline apart -/

theorem normalized_length {L : Lib} {c : Config} {s y : List F32} {sr : ℕ} (h : normalized L c s sr = .ok y) :
    y.length = s.length := by
  unfold normalized at h
  by_cases hn : c.enableNormalization = true
  · rw [if_pos hn] at h
    obtain ⟨r, h1, h2⟩ := R.bind_eq_ok.1 h
    cases h2
    generalize (⟨-14, 1, c.normalization⟩ : Norm.Config) = nc at h1
    obtain ⟨out, m⟩ := r
    have hpk : ∀ hd, Norm.normalizePeak L.M s hd = .ok (out, m) → out.length = s.length := by
      intro hd h
      simp only [Norm.normalizePeak] at h
      split_ifs at h <;> simp only [Except.ok.injEq, Prod.mk.injEq] at h <;> rw [← h.1] <;> simp
    unfold Norm.normalize at h1
    split at h1
    · exact hpk _ h1
    · simp only [Norm.normalizeRms] at h1
      split_ifs at h1 <;> simp only [Except.ok.injEq, Prod.mk.injEq] at h1 <;> rw [← h1.1] <;> simp
    · simp only [Norm.normalizeLufs] at h1
      split_ifs at h1
      obtain ⟨ml, _, h1⟩ := R.bind_eq_ok.1 h1
      split_ifs at h1
      · exact hpk _ h1
      · cases h1; simp
      · cases h1; simp
  · rw [if_neg hn] at h; cases h; rfl

theorem trimmed_length {L : Lib} {c : Config} {y x : List F32} {sr : ℕ} (h : trimmed L c y sr = .ok x) :
    x.length ≤ y.length ∧ ∀ v ∈ x, v ∈ y := by
  unfold trimmed at h
  split at h
  · obtain ⟨r, h1, h2⟩ := R.bind_eq_ok.1 h
    cases h2
    obtain ⟨⟨a, b, h3, h4, h5⟩, _⟩ := C01_trim_contiguous _ _ _ _ r.1 r.2 h1
    rw [h5]
    exact ⟨by simp only [List.length_take, List.length_drop]; omega,
      fun v hv => List.mem_of_mem_drop (List.mem_of_mem_take hv)⟩
  · cases h; exact ⟨Nat.le_refl _, fun _ h => h⟩

/-- the stages of a successful analysis -/
theorem analyze_inv {L : Lib} {c : Config} {s : List F32} {sr : ℕ} {r : Result} (h : analyze L c s sr = .ok r) :
    s ≠ [] ∧ sr ≠ 0 ∧ ∃ y x, normalized L c s sr = .ok y ∧ trimmed L c y sr = .ok x ∧ x ≠ [] ∧ x.length ≤ s.length ∧
      analyzeTrimmed L c x sr = .ok r := by
  unfold analyze at h
  by_cases h1 : s = []
  · rw [if_pos h1] at h; simp at h
  rw [if_neg h1] at h
  by_cases h2 : sr = 0
  · rw [if_pos h2] at h; simp at h
  rw [if_neg h2] at h
  obtain ⟨y, hy, h⟩ := R.bind_eq_ok.1 h
  obtain ⟨x, hx, h⟩ := R.bind_eq_ok.1 h
  by_cases h3 : x = []
  · rw [if_pos h3] at h; simp at h
  rw [if_neg h3] at h
  exact ⟨h1, h2, y, x, hy, hx, h3, by rw [← normalized_length hy]; exact (trimmed_length hx).1, h⟩

theorem analyzeTrimmed_inv {L : Lib} {c : Config} {x : List F32} {sr : ℕ} {r : Result} (h : analyzeTrimmed L c x sr = .ok r) :
    ∃ energy spec ons leg t g k, Onset.energyFluxOnsets L.M x c.frame c.hop (-20) = .ok energy ∧
      Chroma.computeStft L.M L.sfft x c.frame c.hop = .ok spec ∧ onsets c energy spec x.length sr = .ok ons ∧
      legacy L c ons sr = .ok leg ∧ tempo L c x spec sr = .ok t ∧
      beats L (Pipeline.selectBpm c.forceLegacy c.enableFusion t.est leg).1
        (Pipeline.selectBpm c.forceLegacy c.enableFusion t.est leg).2 ons sr = .ok g ∧
      keyPart L c x spec sr g.1.beats = .ok k ∧
      r = report L x.length sr energy t (Pipeline.selectBpm c.forceLegacy c.enableFusion t.est leg) g k := by
  unfold analyzeTrimmed at h
  obtain ⟨energy, h1, h⟩ := R.bind_eq_ok.1 h
  obtain ⟨spec, h2, h⟩ := R.bind_eq_ok.1 h
  obtain ⟨ons, h3, h⟩ := R.bind_eq_ok.1 h
  obtain ⟨leg, h4, h⟩ := R.bind_eq_ok.1 h
  obtain ⟨t, h5, h⟩ := R.bind_eq_ok.1 h
  obtain ⟨g, h6, h⟩ := R.bind_eq_ok.1 h
  obtain ⟨k, h7, h⟩ := R.bind_eq_ok.1 h
  exact ⟨energy, spec, ons, leg, t, g, k, h1, h2, h3, h4, h5, h6, h7, (Except.ok.inj h).symm⟩

/-! ### C87: the reported tempo -/

/-- the estimate left by the tempogram branch is in the configured range -/
theorem tempo_range {L : Lib} {c : Config} {x : List F32} {spec : List (List F32)} {sr : ℕ} {t : Tempo} {e : Period.Est}
    (hlo : c.minBpm ≤ 70) (hhi : 180 ≤ c.maxBpm) (h : tempo L c x spec sr = .ok t) (he : t.est = some e) :
    c.minBpm ≤ e.bpm ∧ e.bpm ≤ c.maxBpm ∧ UnitOrNaN e.conf := by
  have hC : ∀ spec n e' cs, estimateCands L.M L.fft L.fuel spec (tempoParams c sr) n (tempoBand c) = .ok (e', cs) →
      c.minBpm ≤ e'.bpm ∧ e'.bpm ≤ c.maxBpm ∧ UnitOrNaN e'.conf := by
    intro spec n e' cs h'
    obtain ⟨⟨a, b⟩, d, _⟩ := (C21_range L.M L.fft L.fuel spec (tempoParams c sr) (tempoBand c) n).2 e' cs h'
    exact ⟨a, b, d⟩
  unfold tempo at h
  split at h
  · rename_i hb
    by_cases hm : c.enableMultiRes = true
    · have h' : tempo L c x spec sr = .ok t := by unfold tempo; rw [if_pos hb]; exact h
      simp only [Bool.and_eq_true, Bool.not_eq_true', decide_eq_true_eq] at hb
      obtain ⟨base, cands, h0, p1, p2, p3, _⟩ := C86_policy L c x spec sr t e hb.1 hb.2 hm h' he
      by_cases hP : t.percUsed = some true
      · obtain ⟨_, _, hp, cs, _, hr⟩ := p3 hP
        exact hC _ _ _ _ hr
      · by_cases hM : t.mrUsed = some true
        · obtain ⟨cs, hr⟩ := p2 hM hP
          obtain ⟨_, a, _, b⟩ := C24_range_partial _ _ _ _ _ _ _ _ _ _ _ _ _ _ _ hr
          exact ⟨(b hlo hhi).1, (b hlo hhi).2, a⟩
        · rw [p1 hM hP]; exact hC _ _ _ _ h0
    · rw [if_neg hm] at h
      split at h
      · obtain ⟨r, hr, h⟩ := R.bind_eq_ok.1 h
        cases h
        rcases r with _ | ⟨e', cs⟩
        · simp at he
        · simp only [Option.map_some, Option.some.injEq] at he
          subst he
          exact hC _ _ _ _ (attempt_some hr)
      · obtain ⟨r, hr, h⟩ := R.bind_eq_ok.1 h
        cases h
        simp only at he
        subst he
        obtain ⟨⟨a, b⟩, d, _⟩ := (C21_range L.M L.fft L.fuel spec (tempoParams c sr) (tempoBand c) 0).1 e (attempt_some hr)
        exact ⟨a, b, d⟩
  · cases h; simp at he

/-- the four ways `selectBpm` can answer -/
theorem selectBpm_cases (force fusion : Bool) (t l : Option Period.Est) (ht : ∀ e, t = some e → 0 < e.bpm) :
    (force = false ∧ ∃ e, t = some e ∧ (Pipeline.selectBpm force fusion t l).1 = e.bpm ∧
      (fusion = false → (Pipeline.selectBpm force fusion t l).2 = e.conf) ∧
      (fusion = true → ∃ v, (Pipeline.selectBpm force fusion t l).2 = F32.clamp v 0 1)) ∨
    ((force = true ∨ t = none) ∧ ∃ e, l = some e ∧ Pipeline.selectBpm force fusion t l = (e.bpm, e.conf)) ∨
    ((force = true ∨ t = none) ∧ l = none ∧ Pipeline.selectBpm force fusion t l = (0, 0)) := by
  unfold Pipeline.selectBpm
  cases force
  · rcases t with _ | e
    · right
      cases fusion
      · rcases l with _ | e' <;> simp
      · rcases l with _ | e'
        · right; exact ⟨.inr rfl, rfl, by decide +kernel⟩
        · left
          refine ⟨.inr rfl, e', rfl, ?_⟩
          simp only [Bool.false_eq_true, if_false, if_true, Option.map_none, Option.getD_none, Option.map_some, Option.getD_some]
          rw [if_pos (by decide +kernel)]
    · left
      have h0 : ¬ e.bpm ≤ 0 := fun h => not_lt_of_le h (ht e rfl)
      cases fusion
      · refine ⟨rfl, e, rfl, ?_⟩
        rcases l with _ | e' <;> simp
      · refine ⟨rfl, e, rfl, ?_⟩
        simp only [Bool.false_eq_true, if_false, if_true, Option.map_some, Option.getD_some, if_neg h0]
        split_ifs <;> exact ⟨rfl, fun h => by simp at h, fun _ => ⟨_, rfl⟩⟩
  · right
    rcases l with _ | e' <;> simp

/-! ### Onsets are positions inside the analysed audio -/

theorem orElse_ok {α} {d a : α} {r : R α} (h : orElse d r = .ok a) : r = .ok a ∨ ((∃ k, r = R.err k) ∧ a = d) := by
  unfold orElse at h
  obtain ⟨o, h1, h2⟩ := R.bind_eq_ok.1 h
  cases h2
  rcases o with _ | b
  · exact .inr ⟨attempt_none h1, rfl⟩
  · exact .inl (attempt_some h1)

theorem onsets_lt {c : Config} {energy : List ℕ} {spec : List (List F32)} {n sr : ℕ} {ons : List ℕ} (hn : n ≤ 2 ^ 31)
    (he : ∀ o ∈ energy, o < n) (h : onsets c energy spec n sr = .ok ons) : ∀ o ∈ ons, o < n := by
  unfold onsets at h
  split at h
  · obtain ⟨sf, _, h⟩ := R.bind_eq_ok.1 h
    obtain ⟨hf, _, h⟩ := R.bind_eq_ok.1 h
    obtain ⟨hp, v, hv, h⟩ : ∃ hp v, attempt (Consensus.voteOnsets ⟨energy, Pipeline.toSamples sf c.hop n,
        Pipeline.toSamples hf c.hop n, Pipeline.toSamples hp c.hop n⟩ c.onsetWeights c.onsetTolMs sr) = .ok v ∧
        ons = Pipeline.chooseOnsets energy v := by
      dsimp only at h
      split at h
      · obtain ⟨hp, _, h⟩ := R.bind_eq_ok.1 h
        obtain ⟨v, hv, h⟩ := R.bind_eq_ok.1 h
        exact ⟨hp, v, hv, (Except.ok.inj h).symm⟩
      · obtain ⟨hp, _, h⟩ := R.bind_eq_ok.1 h
        obtain ⟨v, hv, h⟩ := R.bind_eq_ok.1 h
        exact ⟨hp, v, hv, (Except.ok.inj h).symm⟩
    subst h
    rcases v with _ | cs
    · exact he
    have hv := attempt_some hv
    have hun : n ≤ usizeMax := by unfold usizeMax; omega
    have hall : ∀ d ∈ Detections ⟨energy, Pipeline.toSamples sf c.hop n, Pipeline.toSamples hf c.hop n,
        Pipeline.toSamples hp c.hop n⟩, d.1 < n := by
      intro d hd
      unfold Detections at hd
      simp only [List.mem_append, List.mem_map] at hd
      rcases hd with ((⟨o, ho, rfl⟩ | ⟨o, ho, rfl⟩) | ⟨o, ho, rfl⟩) | ⟨o, ho, rfl⟩
      · exact he o ho
      · exact (((C53_to_samples _ _ _ hun).2 o).1 ho).1
      · exact (((C53_to_samples _ _ _ hun).2 o).1 ho).1
      · exact (((C53_to_samples _ _ _ hun).2 o).1 ho).1
    have hC := C11_partition ⟨energy, Pipeline.toSamples sf c.hop n, Pipeline.toSamples hf c.hop n, Pipeline.toSamples hp c.hop n⟩
      c.onsetWeights c.onsetTolMs sr (fun d hd => Nat.lt_of_lt_of_le (hall d hd) hn)
    by_cases hbad : (sr = 0 ∨ c.onsetTolMs = 0 ∨ (∃ m, m < 4 ∧ c.onsetWeights m < 0))
    · rw [hC.1 hbad] at hv; simp at hv
    obtain ⟨cands, groups, ordered, e, hg, hs, hperm⟩ := hC.2 hbad
    rw [e] at hv
    cases hv
    have hcs : ∀ q ∈ cs, q.timeSamples < n := by
      intro q hq
      have hq' := hperm.mem_iff.2 hq
      obtain ⟨g, hgm, hsum⟩ : ∃ g ∈ groups, Summarises c.onsetWeights sr g q := by
        clear e hg hperm hC hq
        induction hs with
        | nil => simp at hq'
        | cons h1 _ ih =>
          rcases List.mem_cons.1 hq' with rfl | hq'
          · exact ⟨_, by simp, h1⟩
          · obtain ⟨g, h2, h3⟩ := ih hq'
            exact ⟨g, by simp [h2], h3⟩
      obtain ⟨b, hb, hle⟩ := hsum.inSpan.2
      exact Nat.lt_of_le_of_lt hle (hall b (hg.partition.mem_iff.1 (List.mem_flatten.2 ⟨g, hgm, hb⟩)))
    intro o ho
    unfold Pipeline.chooseOnsets at ho
    dsimp only at ho
    have hm : ∀ l : List Consensus.Candidate, (∀ q ∈ l, q ∈ cs) → ∀ o ∈ dedupAdj (sortNat (l.map (·.timeSamples))), o < n := by
      intro l hl o ho
      rw [mem_dedupAdj, (sortNat_perm _).mem_iff, List.mem_map] at ho
      obtain ⟨q, hq, rfl⟩ := ho
      exact hcs q (hl q hq)
    split_ifs at ho
    · exact hm _ (fun q hq => (List.mem_filter.1 hq).1) o ho
    · exact hm _ (fun q hq => hq) o ho
    · exact he o ho
  · cases h; exact he

theorem energy_lt {M : Libm} {x : List F32} {frame hop : ℕ} {thr : F32} {energy : List ℕ}
    (h : Onset.energyFluxOnsets M x frame hop thr = .ok energy) : ∀ o ∈ energy, o < x.length := by
  have hC := C08_energy_flux_onsets M x frame hop thr
  by_cases hb : x ≠ [] ∧ (frame = 0 ∨ hop = 0)
  · rw [hC.1 hb] at h; simp at h
  obtain ⟨out, e, _, h1, _⟩ := hC.2 hb
  rw [e] at h
  cases h
  intro o ho
  obtain ⟨h0, h2, _⟩ := h1 o ho
  by_cases hx : x = []
  · subst hx; simp at h2; omega
  · have : frame ≠ 0 := fun hf => hb ⟨hx, .inl hf⟩
    omega

/-! ### Numbers of legacy candidates -/

theorem acfPeaksFrom_length {s : List F32} {off : ℕ} {prom : F32} :
    ∀ (is : List ℕ) (ps out : List (ℕ × F32)), Period.acfPeaksFrom s off prom is ps = .ok out → out.length ≤ ps.length + is.length := by
  intro is
  induction is with
  | nil => intro ps out h; rw [Period.acfPeaksFrom] at h; cases h; simp
  | cons i is ih =>
    intro ps out h
    rw [Period.acfPeaksFrom] at h
    split at h
    · split at h
      · have := ih _ _ h; simp only [List.length_append, List.length_cons, List.length_nil] at this ⊢; omega
      · obtain ⟨d, _, h⟩ := R.bind_eq_ok.1 h
        split_ifs at h
        · have := ih _ _ h; simp only [List.length_append, List.length_cons, List.length_nil] at this ⊢; omega
        · have := ih _ _ h
          simp only [List.length_append, List.length_cons, List.length_nil, List.length_dropLast] at this ⊢
          omega
        · have := ih _ _ h; simp only [List.length_cons]; omega
    · have := ih _ _ h; simp only [List.length_cons]; omega

theorem estAutocorr_length {ifft : List F32 → ℕ → F32} {onsets : List ℕ} {sr hop : ℕ} {minB maxB : F32} {ac : List Period.Cand}
    {n : ℕ} (hn : ∀ o ∈ onsets, o ≤ n) (h : Period.estAutocorr ifft onsets sr hop minB maxB = .ok ac) : ac.length ≤ n / hop + 1 := by
  unfold Period.estAutocorr at h
  split_ifs at h with h1 h2 h3 h4 h5
  · cases h; simp
  dsimp only at h
  split_ifs at h with h6 h7
  · cases h; simp
  obtain ⟨s, hs, h⟩ := R.bind_eq_ok.1 h
  obtain ⟨ps, hps, h⟩ := R.bind_eq_ok.1 h
  cases h
  have hmax : ∀ (l : List ℕ) (a : ℕ), a ≤ n → (∀ o ∈ l, o ≤ n) → l.foldl Nat.max a ≤ n := by
    intro l
    induction l with
    | nil => intro a ha _; exact ha
    | cons o l ih => intro a ha hl; exact ih _ (Nat.max_le.2 ⟨ha, hl o (by simp)⟩) (fun o ho => hl o (by simp [ho]))
  have hlen : (Period.autocorr ifft (Period.beatSignal onsets hop (onsets.foldl Nat.max 0 / hop + 1))).length ≤ n / hop + 1 := by
    unfold Period.autocorr Period.beatSignal
    simp only [List.length_map, List.length_range]
    have := Nat.div_le_div_right (c := hop) (hmax onsets 0 (Nat.zero_le _) hn)
    omega
  have hsl : s.length ≤ n / hop + 1 := by
    unfold slice at hs
    split_ifs at hs
    cases hs
    simp only [List.length_take, List.length_drop]
    omega
  have hp : ps.length ≤ n / hop + 1 := by
    unfold Period.acfPeaks at hps
    split_ifs at hps
    · cases hps; simp
    dsimp only at hps
    split_ifs at hps
    · cases hps; simp
    obtain ⟨q, hq, hps⟩ := R.bind_eq_ok.1 hps
    cases hps
    have := acfPeaksFrom_length _ _ _ hq
    rw [(sortDesc_perm _).length_eq]
    simp only [List.length_nil, List.length_range'] at this
    omega
  rw [(sortDesc_perm _).length_eq]
  unfold Period.acfCands
  exact Nat.le_trans (List.length_filterMap_le _ _) hp

theorem combLoop_length {onsets : List ℕ} {sr : ℕ} {maxB res : F32} :
    ∀ (fuel : ℕ) (b : F32) (cs : List (F32 × F32)), Period.combLoop onsets sr maxB res fuel b = .ok cs → cs.length ≤ fuel := by
  intro fuel
  induction fuel with
  | zero =>
    intro b cs h
    rw [Period.combLoop] at h
    split_ifs at h
    cases h; simp
  | succ f ih =>
    intro b cs h
    rw [Period.combLoop] at h
    split_ifs at h
    · dsimp only at h
      obtain ⟨sc, _, h⟩ := R.bind_eq_ok.1 h
      obtain ⟨rest, hr, h⟩ := R.bind_eq_ok.1 h
      cases h
      have := ih _ _ hr
      simp only [List.length_cons]; omega
    · cases h; simp

/-- a search range that the comb filter covers in `N` steps -/
def CombRange (minB maxB res : F32) (N : ℕ) : Prop :=
  minB.isFinite = true ∧ (maxB + 1e-10).isFinite = true ∧ res.isFinite = true ∧
  (maxB + 1e-10).val ≤ 2 ^ 22 * res.val ∧ (maxB + 1e-10).val - minB.val < N * (res.val / 2)

theorem estComb_length {fuel : ℕ} {onsets : List ℕ} {sr : ℕ} {minB maxB res : F32} {cb : List Period.Cand} {N : ℕ}
    (hN : CombRange minB maxB res N) (h : Period.estComb fuel onsets sr minB maxB res = .ok cb) : cb.length ≤ N := by
  obtain ⟨f1, f2, f3, h4, h5⟩ := hN
  obtain ⟨v, hv, e1⟩ := isFinite_iff.1 f1
  obtain ⟨L, hL, e2⟩ := isFinite_iff.1 f2
  obtain ⟨r, hr, e3⟩ := isFinite_iff.1 f3
  rw [e2, e3] at h4
  rw [e1, e2, e3] at h5
  obtain ⟨_, hk⟩ := C16_comb_terminates_partial onsets sr minB maxB res v L r hv hL hr e1 e2 e3 h4 N h5
  have h' : ∃ f ≤ N, Period.estComb f onsets sr minB maxB res = .ok cb := by
    by_cases hf : fuel ≤ N
    · exact ⟨fuel, hf, h⟩
    · refine ⟨N, Nat.le_refl _, ?_⟩
      rw [← hk (fuel - N), show N + (fuel - N) = fuel by omega]; exact h
  obtain ⟨f, hf, h⟩ := h'
  refine Nat.le_trans ?_ hf
  unfold Period.estComb at h
  split_ifs at h
  · cases h; simp
  obtain ⟨cs, hcs, h⟩ := R.bind_eq_ok.1 h
  cases h
  have := combLoop_length _ _ _ hcs
  unfold Period.combFinish
  dsimp only
  refine Nat.le_trans (List.length_filter_le _ _) ?_
  rw [(sortDesc_perm _).length_eq]
  split_ifs <;> simpa using this

end Verif.Props
