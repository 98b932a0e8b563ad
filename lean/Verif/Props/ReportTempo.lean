/-
Property theorem C87: the tempo that `analyze_audio` reports (src/lib.rs lines 294-909).
-/
import Verif.Props.Report
import Mathlib.Algebra.Order.Ring.Pow

namespace Verif.Props
open Verif Verif.Analyze Verif.Keys Tempogram F32

theorem bernoulli_low {e : ℚ} (h1 : e ≤ 1) (k : ℕ) : 1 - k * e ≤ (1 - e) ^ k := by
  have := one_add_mul_le_pow (a := -e) (by linarith) k
  calc 1 - k * e = 1 + k * (-e) := by ring
    _ ≤ (1 + -e) ^ k := this
    _ = (1 - e) ^ k := by ring_nf

theorem low_up_le_one {e : ℚ} (h0 : 0 ≤ e) (h1 : e ≤ 1) (k : ℕ) : (1 + e) ^ k * (1 - k * e) ≤ 1 := by
  have h2 : (1 + e) ^ k * (1 - e) ^ k ≤ 1 := by
    rw [← mul_pow]
    exact pow_le_one₀ (_root_.mul_nonneg (by linarith) (by linarith)) (by nlinarith)
  have h3 : (0 : ℚ) ≤ (1 + e) ^ k := pow_nonneg (by linarith) k
  exact _root_.le_trans (_root_.mul_le_mul_of_nonneg_left (bernoulli_low h1 k) h3) h2

/-- relative slack of a legacy tempo found in `n` samples: the candidates merged into it are averaged one after the
other in f32 arithmetic -/
def slack (n hop : ℕ) : ℚ := 3 * ((n / hop : ℕ) + 10) / 2 ^ 24

/-- the number lies in the requested tempo range, up to the slack -/
def NearRange (c : Config) (n : ℕ) (bpm : F32) : Prop :=
  0 < bpm ∧ c.minBpm.val * (1 - slack n c.hop) ≤ bpm.val ∧ bpm.val * (1 - slack n c.hop) ≤ (c.maxBpm + 1e-10).val

theorem legacy_range {L : Lib} {c : Config} {ons : List ℕ} {sr n : ℕ} {e : Period.Est}
    (hmin : 1e-15 ≤ c.minBpm) (hmax : c.maxBpm + 1e-10 ≤ 1e15) {N : ℕ} (hcomb : CombRange c.minBpm c.maxBpm c.bpmRes N)
    (hN : N ≤ 2 ^ 19) (hfr : n / c.hop < 2 ^ 19) (hons : ∀ o ∈ ons, o < n) (h : legacy L c ons sr = .ok (some e)) :
    0 ≤ e.conf ∧ NearRange c n e.bpm := by
  unfold legacy at h
  by_cases h2 : 2 ≤ ons.length
  swap
  · rw [if_neg h2] at h; simp at h
  rw [if_pos h2] at h
  generalize (if c.enableGuardrails then some c.guard else none) = guard at h
  have h' := h
  unfold Period.estimateBpm at h'
  obtain ⟨ac, hac, h'⟩ := R.bind_eq_ok.1 h'
  obtain ⟨cb, hcb, _⟩ := R.bind_eq_ok.1 h'
  have l1 := estAutocorr_length (n := n) (fun o ho => Nat.le_of_lt (hons o ho)) hac
  have l2 := estComb_length hcomb hcb
  have hdiv : ∀ o ∈ ons, o / c.hop + 1 < 2 ^ 31 := by
    intro o ho
    have := Nat.div_le_div_right (c := c.hop) (Nat.le_of_lt (hons o ho))
    omega
  obtain ⟨r, hr, _, hall⟩ := C55_legacy_estimate L.M L.ifft L.fuel ons sr c.hop c.minBpm c.maxBpm c.bpmRes guard hmin hmax hdiv ac cb
    (by omega) hac hcb
  rw [hr] at h
  cases h
  obtain ⟨a1, a2, a3, _, a5, a6⟩ := hall e rfl
  have hk : 3 * (e.agreement - 1) ≤ 3 * (n / c.hop + 10) := by omega
  have hminp : 0 < c.minBpm.val := by
    have hd : ∃ h, (1e-15 : F32) = fin (1e-15 : F32).val h := ⟨by decide +kernel, by decide +kernel⟩
    obtain ⟨hd, ed⟩ := hd
    have hp : (0 : ℚ) < (1e-15 : F32).val := by decide +kernel
    obtain ⟨v, hv, e1⟩ := isFinite_iff.1 hcomb.1
    rw [e1, ed, fin_le_fin] at hmin
    rw [e1]; exact lt_of_lt_of_le hp hmin
  generalize 3 * (e.agreement - 1) = k at *
  have heps : (0 : ℚ) ≤ 1 / 2 ^ 24 ∧ (1 : ℚ) / 2 ^ 24 ≤ 1 := by norm_num
  have hs : (k : ℚ) * (1 / 2 ^ 24) ≤ slack n c.hop := by
    unfold slack
    have : (k : ℚ) ≤ 3 * (((n / c.hop : ℕ) : ℚ) + 10) := by exact_mod_cast hk
    linarith
  have hlow := bernoulli_low heps.2 k
  have hup := low_up_le_one heps.1 heps.2 k
  have hlt : (slack n c.hop) < 1 := by
    unfold slack
    have : ((n / c.hop : ℕ) : ℚ) < 2 ^ 19 := by exact_mod_cast hfr
    linarith
  have b1 : c.minBpm.val * (1 - slack n c.hop) ≤ e.bpm.val := by
    refine _root_.le_trans ?_ a5
    exact _root_.mul_le_mul_of_nonneg_left (by linarith) hminp.le
  have hpos : 0 < e.bpm.val := lt_of_lt_of_le (_root_.mul_pos hminp (by linarith)) b1
  refine ⟨a3, ?_, b1, ?_⟩
  · rcases hb : e.bpm with _ | s | ⟨q, hq⟩
    · rw [hb] at hpos; exact absurd hpos (by decide +kernel)
    · rw [hb] at hpos; cases s <;> exact absurd hpos (by decide +kernel)
    · rw [hb] at hpos; rw [zero_def, fin_lt_fin]; exact hpos
  · have hmaxp : 0 ≤ (c.maxBpm + 1e-10).val := by
      by_contra hneg
      have := mul_neg_of_neg_of_pos (not_le.1 hneg) (pow_pos (show (0:ℚ) < 1 + 1 / 2 ^ 24 by norm_num) k)
      linarith
    calc e.bpm.val * (1 - slack n c.hop) ≤ e.bpm.val * (1 - k * (1 / 2 ^ 24)) :=
          _root_.mul_le_mul_of_nonneg_left (by linarith) hpos.le
      _ ≤ (c.maxBpm + 1e-10).val * (1 + 1 / 2 ^ 24) ^ k * (1 - k * (1 / 2 ^ 24)) :=
          _root_.mul_le_mul_of_nonneg_right a6 (by linarith)
      _ = (c.maxBpm + 1e-10).val * ((1 + 1 / 2 ^ 24) ^ k * (1 - k * (1 / 2 ^ 24))) := by ring
      _ ≤ (c.maxBpm + 1e-10).val * 1 := _root_.mul_le_mul_of_nonneg_left hup hmaxp
      _ = _ := by ring

theorem tempo_none_flags {L : Lib} {c : Config} {x : List F32} {spec : List (List F32)} {sr : ℕ} {t : Tempo}
    (h : tempo L c x spec sr = .ok t) (hn : t.est = none) : t.mrTriggered = none ∧ t.cands = none := by
  have hF := C86_flags L c x spec sr t h
  refine ⟨?_, ?_⟩
  · unfold tempo at h
    split at h
    · split at h
      · unfold tempoMulti at h
        obtain ⟨b, _, h⟩ := R.bind_eq_ok.1 h
        rcases b with _ | b
        · cases h; rfl
        · dsimp only at h
          obtain ⟨v, _, h⟩ := R.bind_eq_ok.1 h
          obtain ⟨w, _, h⟩ := R.bind_eq_ok.1 h
          cases h
          simp at hn
      · rename_i hm
        exact (hF.2.2.2.2.2.1 (by simpa using hm)).1
    · cases h; rfl
  · rcases hc : t.cands with _ | l
    · rfl
    · have := (hF.2.2.2.2.2.2.2.1 (by rw [hc]; rfl)).2
      rw [hn] at this; simp at this

/-- **C87.** The reported tempo of a successful analysis is (1) `0` with confidence `0` (no tempo found), or (2) a
tempogram estimate exactly within `[min_bpm, max_bpm]` with a confidence in `[0, 1]` (or NaN), or (3), only when the
legacy estimator was forced or the tempogram gave nothing (then its metadata are absent), a legacy estimate: positive, in
the range up to the accumulated rounding, with a non-negative confidence. -/
theorem C87_tempo (L : Lib) (c : Config) (s : List F32) (sr : ℕ) (r : Result) (h : analyze L c s sr = .ok r)
    (hlo : c.minBpm ≤ 70) (hhi : 180 ≤ c.maxBpm) (hmin : 1e-15 ≤ c.minBpm) (hmax : c.maxBpm + 1e-10 ≤ 1e15)
    (N : ℕ) (hcomb : CombRange c.minBpm c.maxBpm c.bpmRes N) (hN : N ≤ 2 ^ 19)
    (hn : s.length ≤ 2 ^ 31) (hfr : s.length / c.hop < 2 ^ 19) :
    (r.bpm = 0 ∧ r.bpmConf = 0 ∧ r.mrTriggered = none ∧ r.cands = none) ∨
    (c.forceLegacy = false ∧ c.minBpm ≤ r.bpm ∧ r.bpm ≤ c.maxBpm ∧ UnitOrNaN r.bpmConf) ∨
    (0 ≤ r.bpmConf ∧ NearRange c s.length r.bpm ∧ r.mrTriggered = none ∧ r.cands = none) := by
  obtain ⟨_, _, y, x, _, _, _, hlen, hx⟩ := analyze_inv h
  obtain ⟨energy, spec, ons, leg, t, g, k, h1, h2, h3, h4, h5, h6, h7, rfl⟩ := analyzeTrimmed_inv hx
  have hlt := onsets_lt (Nat.le_trans hlen hn) (energy_lt h1) h3
  have hpos : ∀ e, t.est = some e → 0 < e.bpm := by
    intro e he
    exact lt_of_lt_of_le (lt_of_lt_of_le (by decide +kernel) hmin) (tempo_range hlo hhi h5 he).1
  have hflags : (c.forceLegacy = true ∨ t.est = none) → t.mrTriggered = none ∧ t.cands = none := by
    rintro (hf | hf)
    · exact ((C86_flags L c x spec sr t h5).2.2.2.2.1 (.inl hf)).2
    · exact tempo_none_flags h5 hf
  rcases selectBpm_cases c.forceLegacy c.enableFusion t.est leg hpos with ⟨hf, e, he, hb, hc1, hc2⟩ | ⟨hf, e, he, hb⟩ | ⟨hf, he, hb⟩
  · right; left
    obtain ⟨a, b, d⟩ := tempo_range hlo hhi h5 he
    refine ⟨hf, ?_, ?_, ?_⟩
    · show c.minBpm ≤ (Pipeline.selectBpm c.forceLegacy c.enableFusion t.est leg).1
      rw [hb]; exact a
    · show (Pipeline.selectBpm c.forceLegacy c.enableFusion t.est leg).1 ≤ c.maxBpm
      rw [hb]; exact b
    · show UnitOrNaN (Pipeline.selectBpm c.forceLegacy c.enableFusion t.est leg).2
      by_cases hfu : c.enableFusion = true
      · obtain ⟨v, hv⟩ := hc2 hfu
        rw [hv]
        by_cases hvn : v = nan
        · left; rw [hvn]; decide +kernel
        · right; exact clamp01 hvn
      · rw [hc1 (by simpa using hfu)]; exact d
  · right; right
    rw [he] at h4
    have hR := legacy_range hmin hmax hcomb hN hfr (fun o ho => Nat.lt_of_lt_of_le (hlt o ho) hlen) h4
    refine ⟨?_, ?_, hflags hf⟩
    · show 0 ≤ (Pipeline.selectBpm c.forceLegacy c.enableFusion t.est leg).2
      rw [hb]; exact hR.1
    · show NearRange c s.length (Pipeline.selectBpm c.forceLegacy c.enableFusion t.est leg).1
      rw [hb]; exact hR.2
  · left
    refine ⟨?_, ?_, hflags hf⟩
    · show (Pipeline.selectBpm c.forceLegacy c.enableFusion t.est leg).1 = 0
      rw [hb]
    · show (Pipeline.selectBpm c.forceLegacy c.enableFusion t.est leg).2 = 0
      rw [hb]

-- the default settings meet the hypotheses for up to 2^28 samples (101 minutes at 44.1 kHz), with a slack below 10 percent
example : ((({} : Config).minBpm ≤ 70 ∧ 180 ≤ ({} : Config).maxBpm) ∧ (1e-15 ≤ ({} : Config).minBpm ∧ ({} : Config).maxBpm + 1e-10 ≤ 1e15)) ∧
    CombRange ({} : Config).minBpm ({} : Config).maxBpm ({} : Config).bpmRes 401 ∧ (2 ^ 28 - 1) / ({} : Config).hop < 2 ^ 19 ∧
    slack (2 ^ 28 - 1) ({} : Config).hop < 1 / 10 := by
  unfold CombRange slack
  refine ⟨by decide +kernel, by decide +kernel, by decide, ?_⟩
  norm_num

def pulseConfig180 : Config := { pulseConfig with maxBpm := 180, bpmRes := 20 }

theorem pulse_tempo : (match analyze quietLib pulseConfig180 pulses 16 with
    | .ok r => decide (0 < r.bpm) | _ => false) = true := by decide +kernel

theorem pulse_range (r : Result) (e : analyze quietLib pulseConfig180 pulses 16 = .ok r) :
    (r.bpm = 0 ∧ r.bpmConf = 0 ∧ r.mrTriggered = none ∧ r.cands = none) ∨
    (true = false ∧ 50 ≤ r.bpm ∧ r.bpm ≤ 180 ∧ UnitOrNaN r.bpmConf) ∨
    (0 ≤ r.bpmConf ∧ NearRange pulseConfig180 96 r.bpm ∧ r.mrTriggered = none ∧ r.cands = none) :=
  C87_tempo quietLib pulseConfig180 pulses 16 r e (by decide +kernel) (by decide +kernel) (by decide +kernel) (by decide +kernel) 140
    (by unfold CombRange; decide +kernel) (by decide +kernel) (by decide +kernel) (by decide +kernel)

-- a legacy analysis of six pulses, one per second: the result is in the range, with the bound of the theorem
example : ∃ r, analyze quietLib pulseConfig180 pulses 16 = .ok r ∧ 0 < r.bpm ∧ NearRange pulseConfig180 96 r.bpm := by
  have run := pulse_tempo
  rcases e : analyze quietLib pulseConfig180 pulses 16 with err | r
  · rw [e] at run; simp at run
  rw [e] at run
  have hpos := of_decide_eq_true run
  refine ⟨r, rfl, hpos, ?_⟩
  rcases pulse_range r e with h | h | h
  · rw [h.1] at hpos; exact absurd hpos (by decide +kernel)
  · exact absurd h.1 (by simp)
  · exact h.2.1

end Verif.Props
