/-
The onset, tempo and beat stages of `analyze_audio` on full-scale audio: no stage panics or runs forever
(src/lib.rs lines 149-958).
-/
import Verif.Props.WholeKey
import Verif.Props.MultiTotal
import Verif.Props.Hpss
import Verif.Props.GridSafety
import Verif.Props.Report

namespace Verif.Props
open Verif Verif.Analyze Verif.Tempogram Verif.Novelty Verif.Beat F32

/-- given enough steps for its loops, the call ends with a value satisfying `P` or with an error value, and more steps do not
change the outcome -/
def Settles {α} (P : α → Prop) (f : ℕ → R α) : Prop := ∃ N r, Finishes P r ∧ ∀ fuel, N ≤ fuel → f fuel = r

theorem settles_ok {α} {P : α → Prop} {f : ℕ → R α} {a : α} (N : ℕ) (h : P a) (hf : ∀ fuel, N ≤ fuel → f fuel = .ok a) :
    Settles P f := ⟨N, .ok a, .inr ⟨a, rfl, h⟩, hf⟩

theorem settles_const {α} {P : α → Prop} {r : R α} (h : Finishes P r) : Settles P (fun _ => r) := ⟨0, r, h, fun _ _ => rfl⟩

theorem settles_bind {α β} {P : α → Prop} {Q : β → Prop} {f : ℕ → R α} {g : ℕ → α → R β} (hf : Settles P f)
    (hg : ∀ a, P a → Settles Q (fun n => g n a)) : Settles Q (fun n => f n >>= g n) := by
  obtain ⟨N, r, hr, e⟩ := hf
  rcases hr with ⟨k, rfl⟩ | ⟨a, rfl, ha⟩
  · refine ⟨N, R.err k, .inl ⟨k, rfl⟩, fun fuel h => ?_⟩
    dsimp only
    rw [e fuel h]; rfl
  · obtain ⟨N', r', hr', e'⟩ := hg a ha
    refine ⟨N + N', r', hr', fun fuel h => ?_⟩
    dsimp only
    rw [e fuel (by omega), R.ok_bind]
    exact e' fuel (by omega)

/-- given enough steps the call returns a value satisfying `P`, always the same -/
def Returns {α} (P : α → Prop) (f : ℕ → R α) : Prop := ∃ N a, P a ∧ ∀ fuel, N ≤ fuel → f fuel = .ok a

theorem returns_const {α} {P : α → Prop} {r : R α} {a : α} (h : r = .ok a) (hP : P a) : Returns P (fun _ => r) :=
  ⟨0, a, hP, fun _ _ => h⟩

theorem returns_bind {α β} {P : α → Prop} {Q : β → Prop} {f : ℕ → R α} {g : ℕ → α → R β} (hf : Returns P f)
    (hg : ∀ a, P a → Returns Q (fun n => g n a)) : Returns Q (fun n => f n >>= g n) := by
  obtain ⟨N, a, ha, e⟩ := hf
  obtain ⟨N', b, hb, e'⟩ := hg a ha
  refine ⟨N + N', b, hb, fun fuel h => ?_⟩
  dsimp only
  rw [e fuel (by omega), R.ok_bind]
  exact e' fuel (by omega)

theorem returns_attempt {α} {P : α → Prop} {f : ℕ → R α} (hf : Settles P f) :
    Returns (fun o : Option α => ∀ a, o = some a → P a) (fun n => attempt (f n)) := by
  obtain ⟨N, r, hr, e⟩ := hf
  rcases hr with ⟨k, rfl⟩ | ⟨a, rfl, ha⟩
  · exact ⟨N, none, by simp, fun fuel h => by dsimp only; rw [e fuel h]; rfl⟩
  · exact ⟨N, some a, by simpa using ha, fun fuel h => by dsimp only; rw [e fuel h]; rfl⟩

theorem returns_mono {α} {P Q : α → Prop} {f : ℕ → R α} (hf : Returns P f) (h : ∀ a, P a → Q a) : Returns Q f := by
  obtain ⟨N, a, ha, e⟩ := hf
  exact ⟨N, a, h a ha, e⟩

theorem finishes_attempt {α} {P : α → Prop} {r : R α} (h : Finishes P r) : ∃ o, attempt r = .ok o ∧ ∀ a, o = some a → P a := by
  rcases h with ⟨k, rfl⟩ | ⟨a, rfl, ha⟩
  · exact ⟨none, rfl, by simp⟩
  · exact ⟨some a, rfl, by simpa using ha⟩

theorem finishes_orElse {α} {P : α → Prop} {r : R α} (h : Finishes P r) {d : α} (hd : P d) : ∃ a, orElse d r = .ok a ∧ P a := by
  obtain ⟨o, e, ho⟩ := finishes_attempt h
  unfold orElse
  rw [e, R.ok_bind]
  rcases o with _ | a
  · exact ⟨_, rfl, hd⟩
  · exact ⟨_, rfl, ho a rfl⟩

/-! ### Onsets -/

/-- frame numbers from 1 on: a detector compares each frame with the one before -/
def Later (l : List ℕ) : Prop := ∀ k ∈ l, 1 ≤ k

theorem later_nil : Later [] := by unfold Later; simp

theorem flux_finishes (spec : List (List F32)) (p : F32) : Finishes Later (Onset.spectralFluxOnsets spec p) := by
  by_cases h0 : spec = []
  · rw [h0]; exact .inr ⟨[], (C09_empty 1 p).1, later_nil⟩
  by_cases h : (0 ≤ p ∧ p ≤ 1) ∧ Rect spec
  · obtain ⟨out, e, ho⟩ := (C09_spectral_flux spec p h0).2 h
    refine .inr ⟨out, e, ?_⟩
    rcases ho with ⟨-, rfl⟩ | ⟨_, _, _, -, -, -, -, h2, -⟩
    · exact later_nil
    · exact fun k hk => (h2 k hk).1
  · exact .inl ⟨_, (C09_spectral_flux spec p h0).1 h⟩

theorem hfc_finishes (spec : List (List F32)) (sr : ℕ) (p : F32) : Finishes Later (Onset.hfcOnsets spec sr p) := by
  by_cases h0 : spec = []
  · rw [h0]; exact .inr ⟨[], (C09_empty sr p).2.1, later_nil⟩
  by_cases h : 0 < sr ∧ (0 ≤ p ∧ p ≤ 1) ∧ Rect spec
  · obtain ⟨out, e, ho⟩ := (C09_hfc spec sr p h0).2 h
    refine .inr ⟨out, e, ?_⟩
    rcases ho with ⟨-, rfl⟩ | ⟨_, _, -, -, -, h2, -⟩
    · exact later_nil
    · exact fun k hk => (h2 k hk).1
  · exact .inl ⟨_, (C09_hfc spec sr p h0).1 h⟩

theorem perc_finishes (spec : List (List F32)) (p : F32) : Finishes Later (Onset.hpssOnsets spec p) := by
  by_cases h0 : spec = []
  · rw [h0]; exact .inr ⟨[], (C09_empty 1 p).2.2, later_nil⟩
  by_cases h : 0 ≤ p ∧ p ≤ 1
  · obtain ⟨out, e, ho⟩ := (C09_hpss spec p h0).2 h
    refine .inr ⟨out, e, ?_⟩
    rcases ho with ⟨-, rfl⟩ | ⟨_, _, -, -, -, h2, -⟩
    · exact later_nil
    · exact fun k hk => (h2 k hk).1
  · exact .inl ⟨_, (C09_hpss spec p h0).1 h⟩

theorem later_samples {frames : List ℕ} (h : Later frames) {hop n : ℕ} (hn : n ≤ 2 ^ 31) :
    ∀ o ∈ Pipeline.toSamples frames hop n, hop ≤ o ∧ o < n := by
  intro o ho
  have hun : n ≤ usizeMax := by unfold usizeMax; omega
  obtain ⟨h1, f, hf, rfl⟩ := ((C53_to_samples frames hop n hun).2 o).1 ho
  exact ⟨Nat.le_mul_of_pos_left _ (h f hf), h1⟩

/-- the combined onsets lie between the detections -/
theorem voted_between {lo hi : ℕ} (hhi : hi ≤ 2 ^ 31) {inp : Consensus.Input} (hall : ∀ d ∈ Detections inp, lo ≤ d.1 ∧ d.1 < hi)
    (he : ∀ o ∈ inp.energyFlux, lo ≤ o ∧ o < hi) (w : ℕ → F32) (ms sr : ℕ) :
    ∃ v, attempt (Consensus.voteOnsets inp w ms sr) = .ok v ∧ ∀ o ∈ Pipeline.chooseOnsets inp.energyFlux v, lo ≤ o ∧ o < hi := by
  have hC := C11_partition inp w ms sr (fun d hd => Nat.lt_of_lt_of_le (hall d hd).2 hhi)
  by_cases hbad : (sr = 0 ∨ ms = 0 ∨ (∃ m, m < 4 ∧ w m < 0))
  · exact ⟨none, by rw [hC.1 hbad]; rfl, he⟩
  obtain ⟨cs, groups, ordered, e, hg, hs, hperm⟩ := hC.2 hbad
  refine ⟨some cs, by rw [e]; rfl, ?_⟩
  have hcs : ∀ q ∈ cs, lo ≤ q.timeSamples ∧ q.timeSamples < hi := by
    intro q hq
    have hq' := hperm.mem_iff.2 hq
    obtain ⟨g, hgm, hsum⟩ : ∃ g ∈ groups, Summarises w sr g q := by
      clear e hg hperm hC hq
      induction hs with
      | nil => simp at hq'
      | cons h1 _ ih =>
        rcases List.mem_cons.1 hq' with rfl | hq'
        · exact ⟨_, by simp, h1⟩
        · obtain ⟨g, h2, h3⟩ := ih hq'
          exact ⟨g, by simp [h2], h3⟩
    obtain ⟨⟨a, ha, hle'⟩, b, hb, hle⟩ := hsum.inSpan
    have hm : ∀ d ∈ g, d ∈ Detections inp := fun d hd => hg.partition.mem_iff.1 (List.mem_flatten.2 ⟨g, hgm, hd⟩)
    exact ⟨(hall a (hm a ha)).1.trans hle', Nat.lt_of_le_of_lt hle (hall b (hm b hb)).2⟩
  intro o ho
  unfold Pipeline.chooseOnsets at ho
  dsimp only at ho
  have hm : ∀ l : List Consensus.Candidate, (∀ q ∈ l, q ∈ cs) → ∀ o ∈ dedupAdj (sortNat (l.map (·.timeSamples))), lo ≤ o ∧ o < hi := by
    intro l hl o ho
    rw [mem_dedupAdj, (sortNat_perm _).mem_iff, List.mem_map] at ho
    obtain ⟨q, hq, rfl⟩ := ho
    exact hcs q (hl q hq)
  split_ifs at ho
  · exact hm _ (fun q hq => (List.mem_filter.1 hq).1) o ho
  · exact hm _ (fun q hq => hq) o ho
  · exact he o ho

/-- the onset stage succeeds on every spectrogram; no onset lies before the second frame or after the audio -/
theorem onsets_ok {c : Config} {energy : List ℕ} {spec : List (List F32)} {n sr : ℕ} (hn : n ≤ 2 ^ 31)
    (he : ∀ o ∈ energy, c.hop ≤ o ∧ o < n) :
    ∃ ons, onsets c energy spec n sr = .ok ons ∧ ∀ o ∈ ons, c.hop ≤ o ∧ o < n := by
  unfold onsets
  by_cases hc : (c.enableOnsetConsensus && decide (spec ≠ [])) = true
  · rw [if_pos hc]
    obtain ⟨sf, e1, k1⟩ := finishes_orElse (flux_finishes spec c.onsetPercentile) later_nil
    obtain ⟨hf, e2, k2⟩ := finishes_orElse (hfc_finishes spec sr c.onsetPercentile) later_nil
    have h3 : ∃ hp, (if c.enableHpssOnsets then orElse [] (do
          let d ← Onset.hpssDecompose spec c.hpssMargin
          Onset.hpssOnsets d.2 c.onsetPercentile) else .ok []) = .ok hp ∧ Later hp := by
      split_ifs
      · refine finishes_orElse ?_ later_nil
        unfold Onset.hpssDecompose
        split_ifs
        · exact .inl ⟨_, rfl⟩
        · exact .inl ⟨_, rfl⟩
        · exact .inl ⟨_, rfl⟩
        · exact perc_finishes _ _
      · exact ⟨_, rfl, later_nil⟩
    obtain ⟨hp, e3, k3⟩ := h3
    have hall : ∀ d ∈ Detections ⟨energy, Pipeline.toSamples sf c.hop n, Pipeline.toSamples hf c.hop n,
        Pipeline.toSamples hp c.hop n⟩, c.hop ≤ d.1 ∧ d.1 < n := by
      intro d hd
      unfold Detections at hd
      simp only [List.mem_append, List.mem_map] at hd
      rcases hd with ((⟨o, ho, rfl⟩ | ⟨o, ho, rfl⟩) | ⟨o, ho, rfl⟩) | ⟨o, ho, rfl⟩
      · exact he o ho
      · exact later_samples k1 hn o ho
      · exact later_samples k2 hn o ho
      · exact later_samples k3 hn o ho
    obtain ⟨v, e4, hv⟩ := voted_between hn hall he c.onsetWeights c.onsetTolMs sr
    refine ⟨Pipeline.chooseOnsets energy v, ?_, hv⟩
    rw [e1, R.ok_bind, e2, R.ok_bind]
    by_cases hh : c.enableHpssOnsets = true
    · rw [if_pos hh] at e3
      simp only [if_pos hh]
      rw [e3, R.ok_bind, e4]; rfl
    · rw [if_neg hh] at e3
      cases e3
      simp only [if_neg hh]
      rw [R.ok_bind, e4]; rfl
  · rw [if_neg hc]; exact ⟨_, rfl, he⟩

/-! ### The legacy estimate -/

theorem combScore_ok {onsets : List ℕ} (ho : ∀ o ∈ onsets, o < 2 ^ 31) {sr : ℕ} (hsr : sr ≤ 2 ^ 32) {bpm : F32} (h0 : 0 < bpm)
    (hb : bpm ≤ 60 * F32.ofNat sr) (tol : F32) : ∃ x, Period.score onsets sr bpm tol = .ok x := by
  have hper : 1 ≤ (60 * F32.ofNat sr) / bpm := by
    have hfin : (60 * F32.ofNat sr).isFinite = true := by
      have hm : 60 * F32.ofNat sr ≤ 60 * F32.ofNat (2 ^ 32) :=
        mul_le_mul_of_nonneg_left (ofNat_mono hsr) (by decide +kernel)
          (mul_fin_ne_nan (by decide +kernel) (ofNat_finite (by omega))) (by decide +kernel)
      exact isFinite_of_between (lo := 0) (by decide +kernel) (by decide +kernel) (F32.le_trans (F32.le_of_lt h0) hb) hm
    obtain ⟨a, ha, ea⟩ := isFinite_iff.1 hfin
    have hbf : bpm.isFinite = true := isFinite_of_between (lo := 0) (by decide +kernel) hfin (F32.le_of_lt h0) hb
    obtain ⟨b, hb', eb⟩ := isFinite_iff.1 hbf
    rw [ea, eb] at hb
    rw [eb, zero_def] at h0
    have b0 := fin_lt_fin.1 h0
    rw [ea, eb, div_fin b0.ne', one_def]
    refine fin_le_rnd ?_
    rw [le_div_iff₀ b0, one_mul]
    exact fin_le_fin.1 hb
  unfold Period.score
  rcases h : onsets.getLast? with _ | o
  · exact ⟨_, rfl⟩
  dsimp only
  generalize (60 * F32.ofNat sr) / bpm = p at hper
  have h1 : ¬ p < 1 := fun hc => F32.lt_irrefl _ (F32.lt_of_lt_of_le hc hper)
  have hlt := ho o (List.mem_of_getLast? h)
  have hb : (F32.ceil (F32.ofNat o / p)).toUsize ≤ 2 ^ 31 := by
    have e31 : F32.ofNat (2 ^ 31) = fin ((2 ^ 31 : ℕ) : ℚ) (by decide +kernel) := by decide +kernel
    have hle : F32.ofNat o ≤ F32.ofNat (2 ^ 31) := ofNat_mono (by omega)
    obtain ⟨v, hv, ev⟩ := isFinite_iff.1 (ofNat_finite (n := o) (by omega))
    have hv0 : 0 ≤ v := by
      have := ofNat_nonneg o
      rw [ev, zero_def] at this
      exact fin_le_fin.1 this
    rw [ev, e31] at hle
    rw [ev]
    rcases p with _ | (_ | _) | ⟨p, hp⟩
    · have : fin v hv / (nan : F32) = nan := rfl
      rw [this]; decide +kernel
    · have : fin v hv / (inf false : F32) = 0 := rfl
      rw [this]; decide +kernel
    · exact absurd (by decide +kernel : (inf true : F32) < 1) h1
    · have hp1 : 1 ≤ p := by
        rw [one_def] at hper
        exact fin_le_fin.1 hper
      refine ceil_le (h := by decide +kernel) ?_
      rw [div_fin (by linarith)]
      refine rnd_le_fin ?_
      rw [div_le_iff₀ (by linarith)]
      have := fin_le_fin.1 hle
      nlinarith
  rw [if_neg h1, if_neg (by unfold F32.usizeMax; omega)]
  exact ⟨_, rfl⟩

theorem combLoop_ok {onsets : List ℕ} (ho : ∀ o ∈ onsets, o < 2 ^ 31) {sr : ℕ} (hsr : sr ≤ 2 ^ 32) {maxB res : F32} (hr : 0 < res)
    (hmax : maxB + Period.EPS ≤ 60 * F32.ofNat sr) : ∀ (fuel : ℕ) (bpm : F32), 0 < bpm →
    (∃ l, Period.combLoop onsets sr maxB res fuel bpm = .ok l) ∨ Period.combLoop onsets sr maxB res fuel bpm = R.outOfFuel := by
  intro fuel
  induction fuel with
  | zero => intro bpm _; unfold Period.combLoop; split_ifs; exacts [.inr rfl, .inl ⟨_, rfl⟩]
  | succ n ih =>
    intro bpm h0
    unfold Period.combLoop
    split_ifs with h
    · dsimp only
      obtain ⟨x, e⟩ := combScore_ok ho hsr h0 (F32.le_trans h hmax) (F32.clamp (0.1 * (120 / bpm)) 0.05 0.15)
      rw [e, R.ok_bind]
      have hb : 0 < bpm + res := F32.lt_of_lt_of_le h0 (F32.le_add_right (F32.le_of_lt h0) (F32.le_of_lt hr))
      rcases ih (bpm + res) hb with ⟨l, e⟩ | e
      · rw [e]; exact .inl ⟨_, rfl⟩
      · rw [e]; exact .inr rfl
    · exact .inl ⟨_, rfl⟩

/-- the legacy estimate succeeds: the comb scan ends, and no onset lies in the first frame, so the autocorrelation has a signal -/
theorem legacy_returns (L : Lib) {c : Config} {ons : List ℕ} (ho : ∀ o ∈ ons, c.hop ≤ o ∧ o < 2 ^ 30) (hh : 0 < c.hop) {sr : ℕ}
    (hsr : 1000 ≤ sr) (hsr' : sr ≤ 2 ^ 32) (hmin : 1 ≤ c.minBpm) (hlt : c.minBpm < c.maxBpm) (hres : 0 < c.bpmRes)
    (hmax : c.maxBpm + Period.EPS ≤ 60 * F32.ofNat sr) {N : ℕ} (hN : CombRange c.minBpm c.maxBpm c.bpmRes N) :
    Returns (fun _ => True) (fun fuel => legacy { L with fuel := fuel } c ons sr) := by
  unfold legacy
  by_cases h2 : 2 ≤ ons.length
  swap
  · simp only [if_neg h2]
    exact returns_const rfl trivial
  simp only [if_pos h2]
  have hne : ons ≠ [] := by rintro rfl; simp at h2
  have hmin0 : 0 < c.minBpm := F32.lt_of_lt_of_le zero_lt_one hmin
  have hmax0 : 0 < c.maxBpm := F32.lt_trans hmin0 hlt
  unfold Period.estimateBpm
  have hac : ∃ ac, Period.estAutocorr L.ifft ons sr c.hop c.minBpm c.maxBpm = .ok ac := by
    obtain ⟨-, b⟩ := C15_autocorrelation L.ifft ons sr c.hop c.minBpm c.maxBpm (fun o h => by
      have h1 := (ho o h).2
      have h3 := Nat.div_le_self o c.hop
      omega)
    obtain ⟨-, b2⟩ := b (by
      rintro (h | h | h | h | h | h)
      · exact hne h
      · omega
      · omega
      · exact not_le_of_lt hmin0 h
      · exact not_le_of_lt hmax0 h
      · exact not_le_of_lt hlt h)
    obtain ⟨cands, _, _, e, -⟩ := b2 (by
      rintro ⟨-, hz⟩
      obtain ⟨o, l, rfl⟩ := List.exists_cons_of_ne_nil hne
      have h1 := (ho o (by simp)).1
      have h3 := hz o (by simp)
      have := (Nat.div_eq_zero_iff).1 h3
      omega)
    exact ⟨cands, e⟩
  obtain ⟨ac, eac⟩ := hac
  have hcb : Returns (fun _ => True) (fun fuel => Period.estComb fuel ons sr c.minBpm c.maxBpm c.bpmRes) := by
    obtain ⟨f1, f2, f3, h4, h5⟩ := hN
    obtain ⟨v, hv, e1⟩ := isFinite_iff.1 f1
    obtain ⟨M, hM, e2⟩ := isFinite_iff.1 f2
    obtain ⟨r, hr, e3⟩ := isFinite_iff.1 f3
    rw [e2, e3] at h4
    rw [e1, e2, e3] at h5
    obtain ⟨hnf, hk⟩ := C16_comb_terminates_partial ons sr c.minBpm c.maxBpm c.bpmRes v M r hv hM hr e1 e2 e3 h4 N h5
    have hok : ∃ cb, Period.estComb N ons sr c.minBpm c.maxBpm c.bpmRes = .ok cb := by
      unfold Period.estComb at hnf ⊢
      have g1 : ¬ (c.minBpm ≤ 0 ∨ c.maxBpm ≤ 0 ∨ c.maxBpm ≤ c.minBpm) := by
        rintro (h | h | h)
        · exact not_le_of_lt hmin0 h
        · exact not_le_of_lt hmax0 h
        · exact not_le_of_lt hlt h
      rw [if_neg hne, if_neg (by omega), if_neg g1, if_neg (not_le_of_lt hres), if_neg (by omega)] at hnf ⊢
      rcases combLoop_ok (onsets := sortNat ons) (fun o h => ((ho o ((sortNat_perm _).mem_iff.1 h)).2).trans (by norm_num)) hsr' hres
        hmax N c.minBpm hmin0 with ⟨l, e⟩ | e
      · rw [e]; exact ⟨_, rfl⟩
      · rw [e] at hnf; exact absurd rfl hnf
    obtain ⟨cb, ecb⟩ := hok
    refine ⟨N, cb, trivial, fun fuel h => ?_⟩
    have := hk (fuel - N)
    rw [Nat.add_sub_cancel' h] at this
    exact this.trans ecb
  refine returns_bind (returns_const eac trivial) (P := fun _ => True) (fun a _ => ?_)
  exact returns_bind hcb (fun b _ => returns_const rfl trivial)

/-! ### The tempogram estimates -/

theorem short_novelty (M : Libm) {spec : List (List F32)} (h : spec.length < 2) {sr : ℕ} (hsr : 0 < sr)
    (cfg : Option BandCfg) : Tempogram.fullNovelty M spec sr cfg = .ok [] := by
  have hs : ∀ f, Novelty.superflux M spec f = .ok [] := fun f => by unfold Novelty.superflux; rw [if_pos h]
  have he : Novelty.energyFlux spec = .ok [] := by unfold Novelty.energyFlux; rw [if_pos h]
  have hf : Novelty.hfc spec sr = .ok [] := by
    unfold Novelty.hfc
    split_ifs
    · rfl
    · omega
    · rfl
  have hc : Tempogram.conditioned cfg [] [] [] = [] := by
    unfold Tempogram.conditioned Novelty.combined
    rcases cfg with _ | b <;> rfl
  unfold Tempogram.fullNovelty
  rw [hs, R.ok_bind, he, R.ok_bind, hf, R.ok_bind, hc, R.pure_eq_ok]

theorem short_impl (M : Libm) (fft) (fuel : ℕ) {spec : List (List F32)} (h : spec.length < 2) {p : Params} (hsr : 0 < p.sr)
    (cfg : Option BandCfg) : ∃ k, Tempogram.impl M fft fuel spec p cfg = R.err k := by
  unfold Tempogram.impl
  split_ifs with h0
  · exact ⟨_, rfl⟩
  rw [short_novelty M h hsr cfg, R.ok_bind, if_pos rfl]
  exact ⟨_, rfl⟩

theorem short_same (M : Libm) (fft) (fuel : ℕ) {spec : List (List F32)} (h : spec.length < 2) {p : Params} (hsr : 0 < p.sr)
    (cfg : Option BandCfg) : Tempogram.impl M fft fuel spec p cfg = Tempogram.impl M fft 0 spec p cfg := by
  unfold Tempogram.impl
  split_ifs with h0
  · rfl
  rw [short_novelty M h hsr cfg, R.ok_bind, R.ok_bind, if_pos rfl, if_pos rfl]

theorem short_cands (M : Libm) (fft) (fuel : ℕ) {spec : List (List F32)} (h : spec.length < 2) {p : Params} (hsr : 0 < p.sr)
    (topN : ℕ) (cfg : Option BandCfg) : ∃ k, Tempogram.estimateCands M fft fuel spec p topN cfg = R.err k := by
  obtain ⟨k, e⟩ := short_impl M fft fuel h hsr cfg
  refine ⟨k, ?_⟩
  unfold Tempogram.estimateCands
  rw [e]; rfl

/-- libraries for the tempo stages -/
structure TempoLib (L : Lib) : Prop where
  cos : CosUnit L.M
  sfft : SpecFft L.sfft
  ln : LnSane L.M
  fft : FftTame L.M L.fft
  exp : ExpSmall L.M

/-- settings of the tempo stages: a window of 2 to `2^20` samples, a 32-bit hop, a tempo range whose scans end, and band and
fusion weights that cannot overflow -/
structure TempoCfg (c : Config) (sr : ℕ) : Prop where
  frame2 : 2 ≤ c.frame
  frame : c.frame ≤ 2 ^ 20
  params : SaneParams (tempoParams c sr)
  comb : ∃ N, CombRange c.minBpm c.maxBpm c.bpmRes N
  rate : c.maxBpm + Period.EPS ≤ 60 * F32.ofNat sr
  band : TameCfg sr c.band
  weights : SmallWeights c.multiW

theorem cands_settle {M : Libm} {fft} (hM : LnSane M) (hf : FftTame M fft) {frame : ℕ} (h2 : 2 ≤ frame) (hfr : frame ≤ 2 ^ 20)
    {spec : List (List F32)} (hs : Magnitudes spec (frame / 2 + 1)) (hl : spec.length ≤ 2 ^ 62) {p : Params} (hp : SaneParams p)
    {cfg : Option BandCfg} (hc : ∀ c, cfg = some c → TameCfg p.sr c) (topN : ℕ) :
    Settles (fun _ => True) (fun fuel => estimateCands M fft fuel spec p topN cfg) := by
  by_cases h : 2 ≤ spec.length
  · obtain ⟨N, e, cs, h1, -⟩ := C22_ranked M fft spec p cfg hM hf hp (plain_of_stft h2 hfr hs h hl) hc topN
    exact settles_ok N trivial h1
  · have hk : ∀ fuel, estimateCands M fft fuel spec p topN cfg = estimateCands M fft 0 spec p topN cfg := by
      intro fuel
      unfold estimateCands
      rw [short_same M fft fuel (by omega) hp.sr0 cfg]
    obtain ⟨k, e⟩ := short_cands M fft 0 (spec := spec) (by omega) hp.sr0 topN cfg
    exact ⟨0, _, .inl ⟨k, e⟩, fun fuel _ => hk fuel⟩

theorem estimate_settle {M : Libm} {fft} (hM : LnSane M) (hf : FftTame M fft) {frame : ℕ} (h2 : 2 ≤ frame) (hfr : frame ≤ 2 ^ 20)
    {spec : List (List F32)} (hs : Magnitudes spec (frame / 2 + 1)) (hl : spec.length ≤ 2 ^ 62) {p : Params} (hp : SaneParams p)
    {cfg : Option BandCfg} (hc : ∀ c, cfg = some c → TameCfg p.sr c) :
    Settles (fun _ => True) (fun fuel => estimate M fft fuel spec p cfg) := by
  unfold estimate
  refine settles_bind (P := fun _ => True) ?_ (fun a _ => settles_const (.inr ⟨_, rfl, trivial⟩))
  by_cases h : 2 ≤ spec.length
  · obtain ⟨N, e, all, h1, -⟩ := impl_ok hM hf hp (plain_of_stft h2 hfr hs h hl) hc
    exact settles_ok N trivial h1
  · obtain ⟨k, e⟩ := short_impl M fft 0 (spec := spec) (by omega) hp.sr0 cfg
    exact ⟨0, _, .inl ⟨k, e⟩, fun fuel _ => short_same M fft fuel (by omega) hp.sr0 cfg⟩

theorem percussive_magnitudes {spec : List (List F32)} {m : ℕ} (hm : 0 < m) (hs : Magnitudes spec m) (margin : ℕ) :
    Finishes (fun hp : List (List F32) × List (List F32) => Magnitudes hp.2 m ∧ hp.2.length = spec.length)
      (Onset.hpssDecompose spec margin) := by
  by_cases h0 : spec = []
  · rw [h0]; exact .inl ⟨_, rfl⟩
  have hle : rnd (pow2 23) ≤ rnd (pow2 126) := by decide +kernel
  obtain ⟨h, p, e, -, b1, b2, b3⟩ := C49_hpss_partial spec spec.length m margin ⟨rfl, fun fr hfr => (hs fr hfr).1⟩
    (List.length_pos_iff.2 h0) hm (fun fr hfr x hx => ⟨((hs fr hfr).2 x hx).1, F32.le_trans ((hs fr hfr).2 x hx).2 hle⟩)
  refine .inr ⟨_, e, ?_, b1⟩
  intro fr hfr
  obtain ⟨i, hi, rfl⟩ := List.getElem_of_mem hfr
  have hi' : i < spec.length := b1 ▸ hi
  have g1 : p.getD i [] = p[i] := by rw [List.getD_eq_getElem?_getD, List.getElem?_eq_getElem hi, Option.getD_some]
  have g2 : spec.getD i [] = spec[i] := by rw [List.getD_eq_getElem?_getD, List.getElem?_eq_getElem hi', Option.getD_some]
  have hrow := hs spec[i] (List.getElem_mem _)
  have hlen := b2 i hi'
  rw [g1, g2] at hlen
  refine ⟨hlen.trans hrow.1, fun x hx => ?_⟩
  obtain ⟨j, hj, rfl⟩ := List.getElem_of_mem hx
  have hj' : j < (spec[i]).length := hlen ▸ hj
  have hb := b3 i hi' j (by rw [g2]; exact hj')
  rw [g1, g2, List.getD_eq_getElem?_getD, List.getElem?_eq_getElem hj, Option.getD_some, List.getD_eq_getElem?_getD,
    List.getElem?_eq_getElem hj', Option.getD_some] at hb
  exact ⟨hb.1, F32.le_trans hb.2 (hrow.2 _ (List.getElem_mem _)).2⟩

theorem fromSamples_settle {L : Lib} (hL : TempoLib L) {c : Config} {sr : ℕ} (hc : TempoCfg c sr) {x : List F32}
    (hx : FullScale x) (hlen : x.length ≤ 2 ^ 30) :
    Settles (fun _ => True) (fun fuel => MultiRes.fromSamples L.M L.sfft L.fft fuel x sr c.frame c.minBpm c.maxBpm c.bpmRes
      c.multiTopK c.multiW (some c.band)) := by
  have hp : ∀ h, 0 < h → SaneParams ⟨sr, h, c.minBpm, c.maxBpm, c.bpmRes⟩ := fun h hh => sane_hop hh hc.params
  have hcb : ∀ b, some c.band = some b → TameCfg sr b := by rintro b ⟨⟩; exact hc.band
  have hca : ∀ b, MultiRes.active (some c.band) = some b → TameCfg sr b := by
    intro b hb
    unfold MultiRes.active at hb
    rw [Option.filter_some] at hb
    split_ifs at hb
    cases hb
    exact hc.band
  by_cases hs : x.length < c.frame
  · unfold MultiRes.fromSamples
    simp only [if_pos hs]
    exact settles_const (.inl ⟨_, rfl⟩)
  have hst : ∀ h, 0 < h → ∃ rows, Chroma.computeStft L.M L.sfft x c.frame h = .ok rows ∧
      rows.length = (x.length - c.frame) / h + 1 ∧ Magnitudes rows (c.frame / 2 + 1) := by
    intro h hh
    obtain ⟨rows, e, hl, hr⟩ := stft_plain hL.cos hL.sfft hx hc.frame2 hc.frame hh
    rw [if_neg hs] at hl
    exact ⟨rows, e, hl, hr⟩
  obtain ⟨s1, e1, l1, m1⟩ := hst 256 (by omega)
  obtain ⟨s2, e2, l2, m2⟩ := hst 512 (by omega)
  obtain ⟨s3, e3, l3, m3⟩ := hst 1024 (by omega)
  by_cases h2 : 2 ≤ s3.length
  · have hpl : ∀ hop ∈ [256, 512, 1024], ∃ spec, Chroma.computeStft L.M L.sfft x c.frame hop = .ok spec ∧ PlainSpec spec := by
      intro h hh
      simp only [List.mem_cons, List.not_mem_nil, or_false] at hh
      rcases hh with rfl | rfl | rfl
      · exact ⟨s1, e1, plain_of_stft hc.frame2 hc.frame m1 (by omega) (by omega)⟩
      · exact ⟨s2, e2, plain_of_stft hc.frame2 hc.frame m2 (by omega) (by omega)⟩
      · exact ⟨s3, e3, plain_of_stft hc.frame2 hc.frame m3 (by omega) (by omega)⟩
    obtain ⟨N, e, cs, h, -⟩ := C24_succeeds L.M L.sfft L.fft x sr c.frame c.minBpm c.maxBpm c.bpmRes c.multiTopK c.multiW
      (some c.band) hL.ln hL.fft (hp 512 (by omega)) (by omega) hpl hcb hc.weights
    exact settles_ok N trivial h
  · unfold MultiRes.fromSamples
    simp only [if_neg hs, e1, e2, e3, R.ok_bind]
    refine settles_bind (cands_settle hL.ln hL.fft hc.frame2 hc.frame m1 (by omega) (hp 256 (by omega)) hca _) (fun r1 _ => ?_)
    refine settles_bind (cands_settle hL.ln hL.fft hc.frame2 hc.frame m2 (by omega) (hp 512 (by omega)) hca _) (fun r2 _ => ?_)
    obtain ⟨k, e⟩ := short_cands L.M L.fft 0 (spec := s3) (by omega) (hp 1024 (by omega)).sr0 (MultiRes.auxK c.multiTopK)
      (MultiRes.active (some c.band))
    refine ⟨0, R.err k, .inl ⟨k, rfl⟩, fun fuel _ => ?_⟩
    have hk : estimateCands L.M L.fft fuel s3 ⟨sr, 1024, c.minBpm, c.maxBpm, c.bpmRes⟩ (MultiRes.auxK c.multiTopK)
        (MultiRes.active (some c.band)) = R.err k := by
      rw [← e]
      unfold estimateCands
      rw [short_same L.M L.fft fuel (by omega) (hp 1024 (by omega)).sr0]
    dsimp only
    rw [hk]; rfl

theorem tempo_returns {L : Lib} (hL : TempoLib L) {c : Config} {sr : ℕ} (hc : TempoCfg c sr) {x : List F32}
    (hx : FullScale x) (hlen : x.length ≤ 2 ^ 30) {spec : List (List F32)} (hs : Magnitudes spec (c.frame / 2 + 1))
    (hl : spec.length ≤ 2 ^ 62) :
    Returns (fun t : Tempo => c.forceLegacy = false → 2 ≤ spec.length → t.est.isSome = true) (fun fuel => tempo { L with fuel := fuel } c x spec sr) := by
  have hband : ∀ b, tempoBand c = some b → TameCfg (tempoParams c sr).sr b := by
    intro b hb
    unfold tempoBand at hb
    split_ifs at hb
    cases hb
    exact hc.band
  have done : ∀ {α} (a : α), Returns (fun _ => True) (fun _ : ℕ => (.ok a : R α)) := fun a =>
    returns_const rfl trivial
  have hca : ∀ topN, Returns (fun o => 2 ≤ spec.length → o.isSome = true)
      (fun fuel => attempt (estimateCands L.M L.fft fuel spec (tempoParams c sr) topN (tempoBand c))) := by
    intro topN
    by_cases h : 2 ≤ spec.length
    · obtain ⟨N, e, cs, h1, -⟩ := C22_ranked L.M L.fft spec (tempoParams c sr) (tempoBand c) hL.ln hL.fft hc.params
        (plain_of_stft hc.frame2 hc.frame hs h hl) hband topN
      exact ⟨N, some (e, cs), fun _ => rfl, fun fuel hf => by dsimp only; rw [h1 fuel hf]; rfl⟩
    · exact returns_mono (returns_attempt (cands_settle hL.ln hL.fft hc.frame2 hc.frame hs hl hc.params hband topN))
        (fun _ _ h' => absurd h' h)
  have hes : Returns (fun o => 2 ≤ spec.length → o.isSome = true)
      (fun fuel => attempt (estimate L.M L.fft fuel spec (tempoParams c sr) (tempoBand c))) := by
    by_cases h : 2 ≤ spec.length
    · obtain ⟨N, e, all, h1, -⟩ := impl_ok hL.ln hL.fft hc.params (plain_of_stft hc.frame2 hc.frame hs h hl) hband
      exact ⟨N, some e, fun _ => rfl, fun fuel hf => by dsimp only; unfold estimate; rw [h1 fuel hf]; rfl⟩
    · exact returns_mono (returns_attempt (estimate_settle hL.ln hL.fft hc.frame2 hc.frame hs hl hc.params hband))
        (fun _ _ h' => absurd h' h)
  unfold tempo
  by_cases h1 : (!c.forceLegacy && decide (spec ≠ [])) = true
  swap
  · simp only [if_neg h1]
    refine returns_const rfl (fun hfl h2 => absurd h1 (not_not.2 ?_))
    have hne : spec ≠ [] := by rintro rfl; simp at h2
    simp [hfl, hne]
  simp only [if_pos h1]
  by_cases h2 : c.enableMultiRes = true
  · simp only [if_pos h2]
    unfold tempoMulti
    refine returns_bind (hca _) (fun base hb => ?_)
    rcases base with _ | b
    · exact returns_const rfl (fun _ h => absurd (hb h) (by simp))
    dsimp only
    have hmulti : Returns (fun _ => True) (fun fuel => afterMulti { L with fuel := fuel } c x sr (ambiguous c.bpmRes b.1 b.2) b) := by
      unfold afterMulti
      by_cases h3 : ambiguous c.bpmRes b.1 b.2 = true
      · simp only [if_pos h3]
        refine returns_bind (returns_attempt (fromSamples_settle hL hc hx hlen)) (fun r _ => ?_)
        rcases r with _ | mr
        · exact done _
        · exact done _
      · simp only [if_neg h3]; exact done _
    refine returns_bind hmulti (fun ch _ => ?_)
    obtain ⟨chosen, used⟩ := ch
    dsimp only
    have hperc : ∀ topN need, Returns (fun _ => True) (fun fuel => afterPerc { L with fuel := fuel } c spec sr topN need b.1 chosen) := by
      intro topN need
      unfold afterPerc
      by_cases h3 : (c.enablePercussive && need) = true
      · simp only [if_pos h3]
        refine returns_bind (returns_attempt (settles_const (percussive_magnitudes (by omega) hs c.hpssMargin))) (fun d hd => ?_)
        rcases d with _ | hp
        · exact done _
        dsimp only
        obtain ⟨hm, hle⟩ := hd hp rfl
        refine returns_bind (returns_attempt (cands_settle hL.ln hL.fft hc.frame2 hc.frame hm (by omega) hc.params hband topN)) (fun p _ => ?_)
        rcases p with _ | pe
        · exact done _
        · exact done _
      · simp only [if_neg h3]
        split_ifs
        · exact done _
        · exact done _
    refine returns_bind (hperc _ _) (fun fin _ => ?_)
    obtain ⟨final, usedP⟩ := fin
    exact returns_const rfl (fun _ _ => rfl)
  · simp only [if_neg h2]
    by_cases h3 : c.emitCands = true
    · simp only [if_pos h3]
      refine returns_bind (hca _) (fun r hr => returns_const rfl (fun _ h => ?_))
      simpa using hr h
    · simp only [if_neg h3]
      exact returns_bind hes (fun r hr => returns_const rfl (fun _ h => hr h))

/-! ### The beat grid -/

theorem onset_seconds {i sr : ℕ} (hi : i < 2 ^ 30) (hsr : 1000 ≤ sr) (hsr' : sr ≤ 2 ^ 32) :
    -10000000 ≤ F32.ofNat i / F32.ofNat sr ∧ F32.ofNat i / F32.ofNat sr ≤ 10000000 := by
  obtain ⟨v, hv, ev⟩ := isFinite_iff.1 (ofNat_finite (n := i) (by omega))
  obtain ⟨s, hs, es⟩ := isFinite_iff.1 (ofNat_finite (n := sr) (by omega))
  have hv0 : 0 ≤ v := by
    have := ofNat_nonneg i
    rw [ev, zero_def] at this
    exact fin_le_fin.1 this
  have hv1 : v ≤ 2 ^ 30 := by
    have := ofNat_mono (show i ≤ 2 ^ 30 by omega)
    rw [ev, show F32.ofNat (2 ^ 30) = fin (2 ^ 30) (by decide +kernel) by decide +kernel] at this
    exact fin_le_fin.1 this
  have hs1 : 1000 ≤ s := by
    have := ofNat_mono hsr
    rw [es, show F32.ofNat 1000 = fin 1000 (by decide +kernel) by decide +kernel] at this
    exact fin_le_fin.1 this
  rw [ev, es, div_fin (by linarith)]
  have hq0 : 0 ≤ v / s := by positivity
  have hq1 : v / s ≤ 10000000 := by
    rw [div_le_iff₀ (by linarith)]; linarith
  constructor
  · refine F32.le_trans (b := 0) (by decide +kernel) ?_
    rw [zero_def]; exact fin_le_rnd hq0
  · rw [show (10000000 : F32) = fin 10000000 (by decide +kernel) by decide +kernel]
    exact rnd_le_fin hq1

theorem beats_settle {L : Lib} (hE : ExpSmall L.M) {ons : List ℕ} (ho : ∀ o ∈ ons, o < 2 ^ 30) {sr : ℕ} (hsr : 1000 ≤ sr)
    (hsr' : sr ≤ 2 ^ 32) (bpm conf : F32) {fuel : ℕ} (hf : 2 ^ 27 ≤ fuel) :
    ∃ g, beats { L with fuel := fuel } bpm conf ons sr = .ok g := by
  unfold beats
  split_ifs with h
  · have hr : ∀ o ∈ ons.map (fun i => F32.ofNat i / F32.ofNat sr), -10000000 ≤ o ∧ o ≤ 10000000 := by
      intro o h
      obtain ⟨i, hi, rfl⟩ := List.mem_map.1 h
      exact onset_seconds (ho i hi) hsr hsr'
    suffices hfin : Finishes (fun _ => True) (Beat.beatGrid L.M fuel bpm conf (ons.map (fun i => F32.ofNat i / F32.ofNat sr))) by
      obtain ⟨g, e, -⟩ := finishes_orElse hfin (d := (⟨[], [], []⟩, 0)) trivial
      exact ⟨g, e⟩
    rcases C29_no_panic_partial L.M hE fuel hf bpm conf _ hr with ⟨k, e⟩ | ⟨g, st, e⟩
    · exact .inl ⟨k, e⟩
    · exact .inr ⟨_, e, trivial⟩
  · exact ⟨_, rfl⟩

end Verif.Props
