/-
The key branch of `analyze_audio` on full-scale audio: every stage from the spectrogram to the reported key succeeds
(src/lib.rs lines 961-1559).
-/
import Verif.Props.WholeLog
import Verif.Props.Tuning
import Verif.Props.BassBlend
import Verif.Props.ChromaNorm
import Verif.Props.Smoothing
import Verif.Props.ReportKey

namespace Verif.Props
open Verif Verif.Analyze Verif.Keys Verif.KeyDet F32

/-- what is assumed of `powf` in the key branch: C99's rule for NaN, roots and powers of numbers in `[0,1]`, at most the
square root of energies up to `2^118`, at most the square of magnitudes -/
structure KeyPow (M : Libm) : Prop where
  nan : ∀ p, M.powf nan p = nan ∨ M.powf nan p = 1
  unit : ∀ x p : F32, 0 ≤ x → x ≤ 1 → 0 ≤ p → 0 ≤ M.powf x p ∧ M.powf x p ≤ 1
  root : ∀ x p : F32, 0 ≤ x → x ≤ rnd (pow2 118) → 0 ≤ p → p ≤ 0.5 → 0 ≤ M.powf x p ∧ M.powf x p ≤ rnd (pow2 60)
  nonneg : ∀ x p : F32, 0 ≤ x → 1 ≤ p → 0 ≤ M.powf x p
  square : ∀ x p : F32, 0 ≤ x → x ≤ rnd (pow2 54) → 1 ≤ p → p ≤ 2 → (M.powf x p).isFinite = true

/-- libraries for the key branch -/
structure KeyLib (L : Lib) : Prop where
  cos : CosUnit L.M
  sfft : SpecFft L.sfft
  sane : Chroma.Sane L.M
  pow : PowSane L.M L.powi
  key : KeyPow L.M
  trig : TrigSane L.M
  mono : LogMono L.M
  sel : TopK L.sel
  ord : ∀ l, (L.ord l).Perm l
  ord2 : ∀ l, (L.ord2 l).Perm l

/-- settings of the key branch: any mask, any chroma (plain, harmonic profile, bass blend, log-frequency), tuning
correction, sharpening, beat intervals, any template family, detector and segmentation, mode heuristic and harmonic-minor
bonus, with parameters in their documented ranges -/
structure KeyCfg (c : Config) : Prop where
  frame2 : 2 ≤ keyFft c
  frame : keyFft c ≤ 2 ^ 20
  hop : 0 < keyHopOf c
  maskPower : F32.max c.harmonicMaskPower 1 ≤ 2
  hpssPower : F32.max c.keyHpssPower 1 ≤ 2
  logFreq : c.enableLogFreq = true → keyFft c ≤ 2 ^ 14
  beatSync : c.enableBeatSync = true → keyFft c ≤ 2 ^ 14
  tuning : c.enableTuning = true → c.tuningMax ≠ nan
  bass : c.enableBass = true → c.bassWeight ≠ nan
  decay : c.hpcpDecay ≠ nan
  power : c.hpcpPower ≠ nan
  harmonics : c.hpcpHarmonics ≤ 2 ^ 64
  energyPower : F32.max c.energyPower 0 ≤ 0.5
  ensemble : c.enableEnsemble = true → (0 ≤ c.ensembleKK ∧ c.ensembleKK ≤ rnd (pow2 60)) ∧
    0 ≤ c.ensembleTemp ∧ c.ensembleTemp ≤ rnd (pow2 60)
  scales : c.enableMultiScale = true → ∀ x ∈ c.multiScaleWeights, x ≤ rnd (pow2 10)
  minorBonus : c.enableMinorBonus = true → F32.max c.minorBonusWeight 0 ≤ 16

/-! ### Magnitudes -/

/-- `n` frames of `m` magnitudes in `[0, 2^23]` -/
def Magnitudes (s : List (List F32)) (m : ℕ) : Prop := ∀ fr ∈ s, fr.length = m ∧ ∀ x ∈ fr, 0 ≤ x ∧ x ≤ rnd (pow2 23)

theorem max_ge_one (x : F32) : 1 ≤ F32.max x 1 := F32.le_max_right (by decide +kernel)

theorem masked_magnitudes {B : ℕ} {s out : List (List F32)} {n m : ℕ} (hs : Shape s n m) (hm : MagsTo B s m) (ho : Shape out n m)
    (h : ∀ t < n, ∀ b < m, 0 ≤ (out.getD t []).getD b 0 ∧ (out.getD t []).getD b 0 ≤ (s.getD t []).getD b 0) : MagsTo B out m := by
  intro fr hfr
  refine ⟨ho.2 fr hfr, fun x hx => ?_⟩
  obtain ⟨t, ht, rfl⟩ := List.mem_iff_getElem.1 hfr
  obtain ⟨b, hb, rfl⟩ := List.mem_iff_getElem.1 hx
  have hbm : b < m := by rw [← ho.2 _ hfr]; exact hb
  have htn : t < n := by rw [← ho.1]; exact ht
  have hts : t < s.length := by rw [hs.1]; exact htn
  have hbs : b < (s[t]).length := by rw [hs.2 _ (List.getElem_mem hts)]; exact hbm
  obtain ⟨h0, h1⟩ := h t htn b hbm
  simp only [List.getD_eq_getElem?_getD, List.getElem?_eq_getElem ht, List.getElem?_eq_getElem hb,
    List.getElem?_eq_getElem hts, List.getElem?_eq_getElem hbs, Option.getD_some] at h0 h1
  exact ⟨h0, F32.le_trans h1 ((hm _ (List.getElem_mem hts)).2 _ (List.getElem_mem hbs)).2⟩

theorem specForKey_ok {L : Lib} (hL : KeyLib L) {c : Config} (hc : KeyCfg c) {sr : ℕ} (hsr : 1000 ≤ sr) {ks : List (List F32)} {m : ℕ}
    (hm0 : 0 < m) {B : ℕ} (hB : B ≤ 23) (hm : MagsTo B ks m) (hlen : ks.length ≤ 2 ^ 62) :
    ∃ out, specForKey L c sr ks = .ok out ∧ out.length = ks.length ∧ MagsTo (B + 2) out m := by
  have hle : ∀ fr ∈ ks, ∀ x ∈ fr, 0 ≤ x ∧ x ≤ rnd (pow2 54) := fun fr hfr x hx =>
    ⟨((hm fr hfr).2 x hx).1, F32.le_trans ((hm fr hfr).2 x hx).2 (rnd_mono (pow2_le (by omega)))⟩
  unfold specForKey
  by_cases hne : ks = []
  · rw [if_neg (by simp [hne])]; exact ⟨ks, rfl, rfl, hm.mono (by omega)⟩
  rw [if_pos hne]
  have hs : Shape ks ks.length m := ⟨rfl, fun fr hfr => (hm fr hfr).1⟩
  have hpos : 0 < ks.length := List.length_pos_iff.2 hne
  by_cases h1 : c.enableKeyHpss = true
  · rw [if_pos h1]
    obtain ⟨out, e, hsh, hv⟩ := C49_median_mask_partial L.M ks ks.length m sr (keyFft c) 100 5000 c.keyHpssStep c.keyHpssTime
      c.keyHpssFreq c.keyHpssPower (rnd (pow2 54)) hs hpos hm0 (by decide +kernel)
      (fun fr hfr x hx => ⟨(hle fr hfr x hx).1, fun _ => (hle fr hfr x hx).2⟩)
      (fun x h0 h1 => ⟨hL.key.nonneg x _ h0 (max_ge_one _), hL.key.square x _ h0 h1 (max_ge_one _) hc.hpssPower⟩)
      (by
        have : F32.ofNat 1000 / 2 ≤ F32.ofNat sr / 2 := by
          refine F32.div_le_div_right (ofNat_mono hsr) (by decide +kernel) (by decide +kernel) ?_
          rcases nonneg_cases (ofNat_nonneg sr) with e | ⟨v, hv, e, _⟩ <;> rw [e]
          · decide +kernel
          · obtain ⟨h2, e2⟩ : ∃ h, (2 : F32) = fin 2 h := ⟨by decide +kernel, by decide +kernel⟩
            rw [e2, div_fin (by norm_num)]; exact rnd_ne_nan _
        exact F32.le_trans (by decide +kernel) this)
    rw [e]
    exact ⟨out, rfl, hsh.1, (masked_magnitudes hs hm hsh hv).mono (by omega)⟩
  rw [if_neg h1]
  by_cases h2 : c.enableHarmonicMask = true
  · rw [if_pos h2]
    obtain ⟨out, e, hsh, hv⟩ := C49_time_mask_partial L.M ks ks.length m c.smoothMargin c.harmonicMaskPower hs hpos hm0 (by omega)
      (fun fr hfr x hx => ⟨(hle fr hfr x hx).1, F32.le_trans ((hm fr hfr).2 x hx).2 (rnd_mono (pow2_le (by omega)))⟩)
      (fun x h0 => hL.key.nonneg x _ h0 (max_ge_one _))
      (fun x h0 h1 => hL.key.square x _ h0 h1 (max_ge_one _) hc.maskPower)
    rw [e]
    exact ⟨out, rfl, hsh.1, (masked_magnitudes hs hm hsh hv).mono (by omega)⟩
  rw [if_neg h2]
  by_cases h3 : c.enableTimeSmoothing = true
  · rw [if_pos h3]
    obtain ⟨out, e, hl, ho⟩ := smoothTime_ok (by omega) hm0 hm hlen c.smoothMargin
    rw [e]
    exact ⟨out, rfl, hl, ho⟩
  · rw [if_neg h3]; exact ⟨ks, rfl, rfl, hm.mono (by omega)⟩

/-! ### Harmonic profiles and energies -/

theorem sum_sat50 {l : List F32} (h : ∀ x ∈ l, 0 ≤ x ∧ x ≤ rnd (pow2 50)) : 0 ≤ F32.sum l ∧ F32.sum l ≤ rnd (pow2 74) := by
  have key : ∀ (l : List F32), (∀ x ∈ l, 0 ≤ x ∧ x ≤ rnd (pow2 50)) → ∀ a : F32, 0 ≤ a → a ≤ rnd (pow2 74) →
      0 ≤ l.foldl (· + ·) a ∧ l.foldl (· + ·) a ≤ rnd (pow2 74) := by
    intro l
    induction l with
    | nil => intro _ a h0 h1; exact ⟨h0, h1⟩
    | cons x l ih =>
      intro h a h0 h1
      obtain ⟨x0, x1⟩ := h x (by simp)
      have hs := F32.add_nonneg h0 x0
      have hle : a + x ≤ rnd (pow2 74) + rnd (pow2 50) := F32.add_le_add h1 x1 (ne_nan_right hs) (by decide +kernel)
      exact ih (fun y hy => h y (by simp [hy])) _ hs (F32.le_trans hle (by decide +kernel))
  exact key l h 0 (by decide +kernel) (by decide +kernel)

theorem energies_of {ks : List (List F32)} {m : ℕ} (hm : MagsTo 25 ks m) : Energies (ks.map Chroma.energy) := by
  intro y hy
  obtain ⟨fr, hfr, rfl⟩ := List.mem_map.1 hy
  have h := sum_sat50 (l := fr.map (fun x => x * x)) (fun y hy => by
    obtain ⟨x, hx, rfl⟩ := List.mem_map.1 hy
    obtain ⟨x0, x1⟩ := (hm fr hfr).2 x hx
    have := mul_self_range x0 x1 (by decide +kernel)
    exact ⟨this.1, F32.le_trans this.2 (by decide +kernel)⟩)
  exact ⟨h.1, F32.le_trans h.2 (by decide +kernel)⟩

theorem energy_small {fr : List F32} {m : ℕ} (hm : m ≤ 2 ^ 13 + 1) (h : fr.length = m ∧ ∀ x ∈ fr, 0 ≤ x ∧ x ≤ rnd (pow2 18)) :
    0 ≤ Chroma.energy fr ∧ Chroma.energy fr ≤ rnd (pow2 50) := by
  have hs := sum_count (B := 36) (by norm_num) (l := fr.map (fun x => x * x)) (fun y hy => by
    obtain ⟨x, hx, rfl⟩ := List.mem_map.1 hy
    obtain ⟨x0, x1⟩ := h.2 x hx
    have := mul_self_range x0 x1 (by decide +kernel)
    exact ⟨this.1, F32.le_trans this.2 (by decide +kernel)⟩) (by rw [List.length_map, h.1]; omega)
  refine ⟨hs.1, F32.le_trans hs.2 (F32.le_trans (rnd_mono (?_ : _ ≤ 8193 * pow2 36)) (by decide +kernel))⟩
  refine mul_le_mul_of_nonneg_right ?_ (pow2_pos _).le
  rw [List.length_map, h.1]
  exact_mod_cast hm

theorem settings_of {c : Config} (hc : KeyCfg c) {sr : ℕ} (hsr : sr ≤ 2 ^ 32) {tun : F32} (ht : tun.isFinite = true) :
    Settings (hpcpCfg c sr tun) :=
  ⟨ht, hc.decay, hc.power, hc.harmonics, by show sr ≤ 2 ^ 64; omega⟩

/-- the tuning estimate is a finite number -/
theorem tuning_ok {L : Lib} (hL : KeyLib L) {c : Config} (hc : KeyCfg c) {sr : ℕ} (hsr : 1000 ≤ sr) (hsr' : sr ≤ 2 ^ 32)
    {ks : List (List F32)} {m : ℕ} (hm0 : 0 < m) (hm64 : m ≤ 2 ^ 64) (hm : MagsTo 25 ks m) (b : Bool) :
    ∃ t, tuningOffset L c sr ks b = .ok t ∧ t.isFinite = true := by
  unfold tuningOffset
  by_cases h : (c.enableTuning && decide (ks ≠ []) && !b) = true
  swap
  · rw [if_neg h]; exact ⟨0, rfl, by decide +kernel⟩
  rw [if_pos h]
  simp only [Bool.and_eq_true] at h
  have hny : F32.max 80 20 + 1 ≤ F32.ofNat sr / 2 := by
    have : F32.ofNat 1000 / 2 ≤ F32.ofNat sr / 2 := by
      refine F32.div_le_div_right (ofNat_mono hsr) (by decide +kernel) (by decide +kernel) ?_
      rcases nonneg_cases (ofNat_nonneg sr) with e | ⟨v, hv, e, _⟩ <;> rw [e]
      · decide +kernel
      · obtain ⟨h2, e2⟩ : ∃ h, (2 : F32) = fin 2 h := ⟨by decide +kernel, by decide +kernel⟩
        rw [e2, div_fin (by norm_num)]; exact rnd_ne_nan _
    exact F32.le_trans (by decide +kernel) this
  obtain ⟨d, e, d0, d1⟩ := C80_range_partial L.M hL.sane hL.trig ks sr (keyFft c) (by omega) (by have := hc.frame; omega) 80 2000
    c.tuningStep c.tuningThr (fun fr hfr h => by have := (hm fr hfr).1; rw [h] at this; simp at this; omega)
    (fun a ha b hb => by rw [(hm a ha).1, (hm b hb).1]) (fun fr hfr => by rw [(hm fr hfr).1]; exact hm64)
    (fun fr hfr x hx e => by have := ((hm fr hfr).2 x hx).2; rw [e] at this; revert this; decide +kernel) hny (by decide +kernel)
  rw [e]
  have hd : d.isFinite = true := isFinite_of_between (by decide +kernel) (by decide +kernel) d0 d1
  have ht := hc.tuning h.1.1
  show ∃ t, clampP d (-c.tuningMax.abs) c.tuningMax.abs = .ok t ∧ _
  generalize c.tuningMax = M at *
  rcases M with _ | b | ⟨q, hq⟩
  · exact absurd rfl ht
  · have e1 : (inf b : F32).abs = inf false := by cases b <;> decide +kernel
    have e2 : (-(inf false) : F32) = inf true := by decide +kernel
    rw [e1, e2]
    unfold clampP
    rw [if_pos (by decide +kernel)]
    refine ⟨_, rfl, ?_⟩
    obtain ⟨v, hv, rfl⟩ := isFinite_iff.1 hd
    rfl
  · obtain ⟨g, e1⟩ : ∃ g, (fin q hq : F32).abs = fin |q| g := ⟨_, rfl⟩
    obtain ⟨g', e2⟩ : ∃ g', (-(fin |q| g) : F32) = fin (-|q|) g' := ⟨_, rfl⟩
    rw [e1, e2]
    unfold clampP
    have hle : fin (-|q|) g' ≤ fin |q| g := by rw [fin_le_fin]; have := abs_nonneg q; linarith
    rw [if_pos hle]
    refine ⟨_, rfl, ?_⟩
    unfold F32.clamp
    dsimp only
    split_ifs <;> first | rfl | exact hd

theorem unit_of_mapM {f : List F32 → R (List F32)} {ks cs : List (List F32)} (h : ks.mapM f = .ok cs)
    (hf : ∀ fr ∈ ks, ∃ r, f fr = .ok r ∧ r.length = 12 ∧ ∀ x ∈ r, 0 ≤ x ∧ x ≤ 1) : UnitRows cs := by
  obtain ⟨cs', e2, hF⟩ := mapM_total (f := f) (P := fun _ r => r.length = 12 ∧ ∀ x ∈ r, 0 ≤ x ∧ x ≤ 1) (spec := ks) hf
  rw [h] at e2
  cases e2
  intro r hr
  obtain ⟨i, hi, rfl⟩ := List.mem_iff_getElem.1 hr
  exact (List.forall₂_iff_get.1 hF).2 i (by rw [(List.forall₂_iff_get.1 hF).1]; exact hi) hi

/-- every chroma extraction from a linear spectrogram -/
theorem chroma_ok {L : Lib} (hL : KeyLib L) {c : Config} (hc : KeyCfg c) {sr : ℕ} (hsr : sr ≤ 2 ^ 32) {ks : List (List F32)} {m : ℕ}
    (hm0 : 0 < m) (hm64 : m ≤ 2 ^ 64) (hm : MagsTo 25 ks m) (hlen : ks.length ≤ 2 ^ 30)
    (hbeat : c.enableBeatSync = true → m ≤ 2 ^ 13 + 1 ∧ MagsTo 18 ks m) {tun : F32} (ht : tun.isFinite = true)
    {bts : List F32} (hbts : c.enableBeatSync = true → bts.length ≤ 2 ^ 30 + 2 ^ 29) :
    ∃ cs es, chromaCall L c sr ks none tun bts = .ok (cs, es) ∧ cs.length = es.length ∧ cs.length ≤ 2 ^ 30 + 2 ^ 29 ∧
      UnitRows cs ∧ Energies es := by
  suffices hmain : (c.enableBeatSync && decide (bts ≠ [])) = false → ∃ cs es, chromaCall L c sr ks none tun bts = .ok (cs, es) ∧
      cs.length = ks.length ∧ es.length = ks.length ∧ UnitRows cs ∧ Energies es by
    cases hb : (c.enableBeatSync && decide (bts ≠ [])) with
    | false =>
      obtain ⟨cs, es, e, l1, l2, h⟩ := hmain hb
      exact ⟨cs, es, e, l1.trans l2.symm, by omega, h⟩
    | true =>
      unfold chromaCall
      rw [hb]
      simp only [decide_true, Bool.and_self, if_true]
      simp only [Bool.and_eq_true, decide_eq_true_eq] at hb
      obtain ⟨hb1, hb2⟩ := hb
      obtain ⟨hm13, hm18⟩ := hbeat hb1
      have hbl := hbts hb1
      have hfr := hc.frame
      have hfr2 := hc.frame2
      by_cases hs : ks = []
      · refine ⟨[], [], ?_, rfl, by norm_num, fun r hr => by (cases hr), fun r hr => by (cases hr)⟩
        rw [hs]
        exact (C69_empty L.M sr (keyFft c) (keyHopOf c) c.softChroma c.softSigma tun ks bts).1
      obtain ⟨cs, es, e, l1, l2, -, hk⟩ := C69_intervals L.M sr (keyFft c) (keyHopOf c) c.softChroma c.softSigma tun ks bts hs hb2
      have hr := C69_range_partial L.M hL.sane sr (keyFft c) (keyHopOf c) (by omega) (by omega) (by omega) c.softChroma c.softSigma tun
        ht ks (by omega) (fun fr hfr => by rw [(hm fr hfr).1]; exact hm64)
        (fun fr hfr x hx e => by have := ((hm fr hfr).2 x hx).2; rw [e] at this; revert this; decide +kernel) bts cs es e
      refine ⟨cs, es, e, l1.trans l2.symm, by omega, fun r hr' => hr r hr', fun y hy => ?_⟩
      obtain ⟨k, hkl, rfl⟩ := List.mem_iff_getElem.1 hy
      obtain ⟨_, -, -, c3, c4⟩ := hk k (by omega)
      by_cases hE : startingIn sr (keyHopOf c) ks.length bts[k] bts[k + 1] = []
      · have := (c3 hE).2
        rw [List.getElem?_eq_getElem hkl] at this
        rw [Option.some.inj this]
        decide +kernel
      · have := (c4 hE).2
        rw [List.getElem?_eq_getElem hkl] at this
        rw [Option.some.inj this]
        have hsat := sum_sat50 (l := (startingIn sr (keyHopOf c) ks.length bts[k] bts[k + 1]).map
          (fun i => Chroma.energy (ks.getD i []))) (fun y hy => by
            obtain ⟨i, hi, rfl⟩ := List.mem_map.1 hy
            have hil := (mem_startingIn.1 hi).1
            rw [List.getD_eq_getElem?_getD, List.getElem?_eq_getElem hil, Option.getD_some]
            exact energy_small hm13 (hm18 _ (List.getElem_mem hil)))
        exact ⟨hsat.1, F32.le_trans hsat.2 (by decide +kernel)⟩
  intro hbf
  have hne : ∀ fr ∈ ks, fr ≠ [] := fun fr hfr h => by have := (hm fr hfr).1; rw [h] at this; simp at this; omega
  have heq : ∀ a ∈ ks, ∀ b ∈ ks, a.length = b.length := fun a ha b hb => by rw [(hm a ha).1, (hm b hb).1]
  have hen := energies_of hm
  have hfr := hc.frame
  have hset := settings_of hc hsr ht
  have h76 : ∀ fr ∈ ks, ∀ x ∈ fr, x = nan ∨ x ≤ rnd (pow2 76) := fun fr hfr x hx =>
    Or.inr (F32.le_trans ((hm fr hfr).2 x hx).2 (by decide +kernel))
  have hl64 : ∀ fr ∈ ks, fr.length ≤ 2 ^ 64 := fun fr hfr => by rw [(hm fr hfr).1]; exact hm64
  have hplain : ∀ (soft : Bool) (sigma t : F32), t.isFinite = true → ∃ cs es,
      Chroma.chromaEnergyOfSpec L.M sr (keyFft c) soft sigma t ks = .ok (cs, es) ∧ cs.length = ks.length ∧ es.length = ks.length ∧
      UnitRows cs ∧ Energies es := by
    intro soft sigma t ht
    obtain ⟨cs, es, e, l1, l2, -⟩ := (C46_shape L.M sr (keyFft c) soft sigma t ks).1 hne heq
    refine ⟨cs, es, e, l1, l2, ?_⟩
    unfold Chroma.chromaEnergyOfSpec at e
    split_ifs at e with h0
    · cases e; exact ⟨fun r hr => by (cases hr), fun r hr => by (cases hr)⟩
    · obtain ⟨_, -, e⟩ := R.bind_eq_ok.1 e
      obtain ⟨cs', ecs, e⟩ := R.bind_eq_ok.1 e
      simp only [R.pure_eq_ok, Except.ok.injEq, Prod.mk.injEq] at e
      obtain ⟨rfl, rfl⟩ := e
      refine ⟨unit_of_mapM ecs (fun fr hfr => ?_), hen⟩
      exact C46_range_partial L.M hL.sane sr (keyFft c) (by omega) (by have := hc.frame2; omega) (by omega) soft sigma t ht fr
        (hl64 fr hfr) (fun x hx e => by have := ((hm fr hfr).2 x hx).2; rw [e] at this; revert this; decide +kernel)
  unfold chromaCall
  rw [hbf]
  simp only [Bool.false_and, Bool.false_eq_true, if_false]
  by_cases h1 : c.enableHpcp = true
  swap
  · rw [if_neg h1]
    split_ifs
    · exact hplain _ _ _ ht
    · exact hplain _ _ _ (by decide +kernel)
  rw [if_pos h1]
  by_cases h2 : c.enableBass = true
  · rw [if_pos h2]
    obtain ⟨-, cs, es, e, l1, l2, -⟩ := (C78_shape L.M L.powi L.sel (hpcpCfg c sr tun) c.bassFmin c.bassFmax c.bassWeight ks).1 hne heq
    have hr := C82_range_partial L.M hL.sane L.powi hL.pow L.sel hL.sel (hpcpCfg c sr tun) hset
      (by show keyFft c ≤ 2 ^ 64; omega) c.bassFmin c.bassFmax c.bassWeight (hc.bass h2) ks hl64 h76 cs es e
    refine ⟨cs, es, e, l1, l2, fun r hr' => ⟨(hr r hr').1, (hr r hr').2.1⟩, ?_⟩
    unfold Hpcp.bassBlend at e
    split_ifs at e with h0
    · cases e; intro r hr; cases hr
    · obtain ⟨_, -, e⟩ := R.bind_eq_ok.1 e
      obtain ⟨cs', ecs, e⟩ := R.bind_eq_ok.1 e
      simp only [R.pure_eq_ok, Except.ok.injEq, Prod.mk.injEq] at e
      obtain ⟨-, rfl⟩ := e
      exact hen
  · rw [if_neg h2]
    obtain ⟨⟨cs, es, e, l1, l2, -⟩, -⟩ := (C78_shape L.M L.powi L.sel (hpcpCfg c sr tun) 0 0 0 ks).1 hne heq
    refine ⟨cs, es, e, l1, l2, ?_⟩
    unfold Hpcp.hpcpOfSpec at e
    split_ifs at e with h0
    · cases e; exact ⟨fun r hr => by (cases hr), fun r hr => by (cases hr)⟩
    · obtain ⟨_, -, e⟩ := R.bind_eq_ok.1 e
      obtain ⟨cs', ecs, e⟩ := R.bind_eq_ok.1 e
      simp only [R.pure_eq_ok, Except.ok.injEq, Prod.mk.injEq] at e
      obtain ⟨rfl, rfl⟩ := e
      refine ⟨unit_of_mapM ecs (fun fr hfr => ?_), hen⟩
      obtain ⟨r, er, h1, h2, -⟩ := C78_range_partial L.M hL.sane L.powi hL.pow L.sel hL.sel (hpcpCfg c sr tun) hset
        (by show keyFft c ≤ 2 ^ 64; omega) Chroma.FMIN Chroma.FMAX fr (hl64 fr hfr) (h76 fr hfr)
      exact ⟨r, er, h1, h2⟩

/-! ### Smoothing and trimming -/

theorem sharpen_unit {L : Lib} (hL : KeyLib L) {p : F32} (hp : 1 < p) {cs : List (List F32)} (hu : UnitRows cs) :
    UnitRows (cs.map (fun v => Chroma.sharpen L.M v p)) := by
  intro r hr
  obtain ⟨v, hv, rfl⟩ := List.mem_map.1 hr
  obtain ⟨l, h⟩ := hu v hv
  have hp0 : (0 : F32) ≤ p := F32.le_trans (by decide +kernel) (F32.le_of_lt hp)
  rw [sharpen_eq]
  have hs := (unitOrUniform_spec (s := v.map (fun x => L.M.powf x p))
    (by intro e; have := congrArg List.length e; simp [l] at this) (by rw [List.length_map, l]; norm_num) (fun y hy => by
      obtain ⟨x, hx, rfl⟩ := List.mem_map.1 hy
      have := hL.key.unit x p (h x hx).1 (h x hx).2 hp0
      exact ⟨this.1, F32.le_trans this.2 (by decide +kernel)⟩)).1
  refine ⟨?_, hs⟩
  unfold unitOrUniform
  split_ifs <;> simp [l]

theorem smooth_unit {cs : List (List F32)} (hu : UnitRows cs) (hl : cs.length ≤ 2 ^ 30 + 2 ^ 29) :
    ∃ out, Chroma.smooth cs 5 = .ok out ∧ out.length = cs.length ∧ UnitRows out := by
  obtain ⟨out, e, l, hr, hmed⟩ := C47_median cs 12 5 (fun fr hfr => (hu fr hfr).1)
    (fun fr hfr x hx => ne_nan_right ((hu fr hfr).2 x hx).1) (by omega)
  refine ⟨out, e, l, fun r hr' => ⟨hr r hr', fun x hx => ?_⟩⟩
  obtain ⟨i, hi, rfl⟩ := List.mem_iff_getElem.1 hr'
  obtain ⟨j, hj, rfl⟩ := List.mem_iff_getElem.1 hx
  have hj' : j < 12 := by rw [← hr _ hr']; exact hj
  have hm := (hmed i (by omega) j hj').1
  simp only [List.getD_eq_getElem?_getD, List.getElem?_eq_getElem hi, List.getElem?_eq_getElem hj, Option.getD_some] at hm
  obtain ⟨k, hk, ek⟩ := List.mem_map.1 hm
  have hk' : k < cs.length := List.mem_range.1 (List.mem_filter.1 hk).1
  have hj2 : j < (cs[k]).length := by rw [(hu _ (List.getElem_mem hk')).1]; exact hj'
  simp only [List.getD_eq_getElem?_getD, List.getElem?_eq_getElem hk', List.getElem?_eq_getElem hj2, Option.getD_some] at ek
  rw [← ek]
  exact (hu _ (List.getElem_mem hk')).2 _ (List.getElem_mem hj2)

theorem postChroma_ok {L : Lib} (hL : KeyLib L) {c : Config} {cs : List (List F32)} (hu : UnitRows cs) (hl : cs.length ≤ 2 ^ 30 + 2 ^ 29) :
    ∃ out, postChroma L c cs = .ok out ∧ out.length = cs.length ∧ UnitRows out := by
  have key : ∀ d : List (List F32), UnitRows d → d.length = cs.length →
      ∃ out, (if 5 < d.length then Chroma.smooth d 5 else .ok d) = .ok out ∧ out.length = cs.length ∧ UnitRows out := by
    intro d hd he
    split_ifs
    · obtain ⟨out, e, l, u⟩ := smooth_unit hd (by omega)
      exact ⟨out, e, l.trans he, u⟩
    · exact ⟨d, rfl, he, hd⟩
  unfold postChroma
  dsimp only
  by_cases h1 : 1 < c.sharpening
  · rw [if_pos h1]; exact key _ (sharpen_unit hL h1 hu) (by simp)
  · rw [if_neg h1]; exact key _ hu rfl

theorem edgeTrim_ok {c : Config} {cs : List (List F32)} {es : List F32} (hl : cs.length = es.length) (hu : UnitRows cs) (he : Energies es) :
    ∃ cs' es', edgeTrim c cs es = .ok (cs', es') ∧ cs'.length = es'.length ∧ UnitRows cs' ∧ Energies es' ∧ cs'.length ≤ cs.length := by
  unfold edgeTrim
  split_ifs with h1
  swap
  · exact ⟨cs, es, rfl, hl, hu, he, le_refl _⟩
  dsimp only
  split_ifs with h2
  swap
  · exact ⟨cs, es, rfl, hl, hu, he, le_refl _⟩
  rw [slice_ok (by omega) h2.2, slice_ok (by omega) (by omega)]
  refine ⟨_, _, rfl, ?_, fun r hr => hu r (List.mem_of_mem_drop (List.mem_of_mem_take hr)),
    fun x hx => he x (List.mem_of_mem_drop (List.mem_of_mem_take hx)), ?_⟩
  · simp only [List.length_take, List.length_drop, hl]
  · rw [List.length_take, List.length_drop]; omega

/-! ### Frame weights -/

theorem tonal_uon (M : Libm) (ch : List F32) : UnitOrNaN (tonalness M ch) := by
  unfold tonalness
  dsimp only
  split_ifs
  · right; decide +kernel
  · exact clamp_uon _

theorem frameWeight_range {L : Lib} (hL : KeyLib L) {c : Config} (hc : KeyCfg c) {median : F32} (h0 : 1e-12 ≤ median)
    (h1 : median ≤ rnd (pow2 78)) (ch : List F32) {e : F32} (e0 : 0 ≤ e) (e1 : e ≤ rnd (pow2 78)) :
    0 ≤ frameWeight L.M c median ch e ∧ frameWeight L.M c median ch e ≤ rnd (pow2 60) := by
  obtain ⟨g12, e12⟩ : ∃ h, (1e-12 : F32) = fin (1e-12 : F32).val h := ⟨by decide +kernel, by decide +kernel⟩
  have v12 : (1 / 2 ^ 40 : ℚ) ≤ (1e-12 : F32).val := by decide +kernel
  obtain ⟨g78, e78⟩ : ∃ h, rnd (pow2 78) = fin (pow2 78) h := ⟨by decide +kernel, by decide +kernel⟩
  have hen : 0 ≤ F32.max (e / median) 0 ∧ F32.max (e / median) 0 ≤ rnd (pow2 118) := by
    refine ⟨F32.le_max_right (by decide +kernel), F32.max_le ?_ (by decide +kernel)⟩
    rw [e12] at h0
    rw [e78] at h1 e1
    rw [zero_def] at e0
    obtain ⟨m, hm, rfl, m0, m1⟩ := between_cases h0 h1
    obtain ⟨v, hv, rfl, v0, v1⟩ := between_cases e0 e1
    have hm0 : (1 / 2 ^ 40 : ℚ) ≤ m := v12.trans m0
    have hmp : (0 : ℚ) < m := lt_of_lt_of_le (by norm_num) hm0
    rw [div_fin hmp.ne']
    refine rnd_mono ?_
    rw [div_le_iff₀ hmp]
    have e118 : pow2 118 = pow2 78 * 2 ^ 40 := by unfold pow2; norm_num
    rw [e118]
    calc v ≤ pow2 78 * 1 := by rw [mul_one]; exact v1
      _ ≤ pow2 78 * (2 ^ 40 * m) := by
        refine mul_le_mul_of_nonneg_left ?_ (pow2_pos _).le
        have := mul_le_mul_of_nonneg_left hm0 (by norm_num : (0 : ℚ) ≤ 2 ^ 40)
        norm_num at this ⊢
        linarith
      _ = pow2 78 * 2 ^ 40 * m := by ring
  unfold frameWeight
  dsimp only
  generalize F32.max (e / median) 0 = en at *
  have hb := hL.key.root en (F32.max c.energyPower 0) hen.1 hen.2 (F32.le_max_right (by decide +kernel)) hc.energyPower
  generalize L.M.powf en (F32.max c.energyPower 0) = b at *
  have ha : UnitOrNaN (L.M.powf (if tonalness L.M ch < c.minTonalness then 0 else tonalness L.M ch) (F32.max c.tonalnessPower 0)) := by
    have ht : UnitOrNaN (if tonalness L.M ch < c.minTonalness then 0 else tonalness L.M ch) := by
      split_ifs
      · right; decide +kernel
      · exact tonal_uon _ _
    rcases ht with ht | ⟨t0, t1⟩
    · rw [ht]
      rcases hL.key.nan (F32.max c.tonalnessPower 0) with h | h <;> rw [h]
      · left; rfl
      · right; decide +kernel
    · exact Or.inr (hL.key.unit _ _ t0 t1 (F32.le_max_right (by decide +kernel)))
  generalize L.M.powf (if tonalness L.M ch < c.minTonalness then 0 else tonalness L.M ch) (F32.max c.tonalnessPower 0) = a at *
  refine ⟨F32.le_max_right (by decide +kernel), ?_⟩
  rcases ha with rfl | ⟨a0, a1⟩
  · rw [nan_mul]; decide +kernel
  · have hbf : b.isFinite = true := isFinite_of_between (by decide +kernel) (by decide +kernel) hb.1 hb.2
    have := mul_le_of_le_one hb.1 a0 a1 hbf
    rw [F32.mul_comm] at this
    exact F32.max_le (F32.le_trans this.2 hb.2) (by decide +kernel)

theorem frameWeights_ok {L : Lib} (hL : KeyLib L) {c : Config} (hc : KeyCfg c) {cs : List (List F32)} {es : List F32} (he : Energies es)
    {w : List F32} (h : frameWeights L.M c cs es = some w) :
    w.length = cs.length ∧ ∀ x ∈ w, 0 ≤ x ∧ x ≤ rnd (pow2 60) := by
  unfold frameWeights at h
  split_ifs at h with h1
  dsimp only at h
  split_ifs at h
  cases h
  simp only [Bool.and_eq_true, decide_eq_true_eq] at h1
  unfold allWeights
  dsimp only
  have hmed : 0 ≤ (sortAsc id es).getD (es.length / 2) 0 ∧ (sortAsc id es).getD (es.length / 2) 0 ≤ rnd (pow2 78) := by
    rw [List.getD_eq_getElem?_getD]
    rcases hg : (sortAsc id es)[es.length / 2]? with _ | y
    · simp only [Option.getD_none]; decide +kernel
    · simp only [Option.getD_some]
      exact he y (mem_sortAsc.1 (List.mem_of_getElem? hg))
  generalize (sortAsc id es).getD (es.length / 2) 0 = md at *
  constructor
  · rw [List.length_zipWith, h1.2, Nat.min_self]
  · intro x hx
    obtain ⟨i, hi, rfl⟩ := List.mem_iff_getElem.1 hx
    rw [List.getElem_zipWith]
    have hi2 : i < es.length := by rw [List.length_zipWith] at hi; omega
    obtain ⟨e0, e1⟩ := he _ (List.getElem_mem hi2)
    exact frameWeight_range hL hc (F32.le_max_right (by decide +kernel)) (F32.max_le hmed.2 (by decide +kernel)) _ e0 e1

/-! ### Detection -/

theorem templates_unit (c : Config) : UnitTemplates (templates c) := by
  unfold templates
  split_ifs
  · exact unitTemplates_builtin.2
  · exact unitTemplates_builtin.1

theorem detect_ok {L : Lib} (hL : KeyLib L) {c : Config} (hc : KeyCfg c) {cs : List (List F32)} {w : Option (List F32)}
    (h : ChromaInput cs w) (hn : cs.length ≤ 2 ^ 64) : ∃ r, detect L c cs w = .ok r ∧ Reported r := by
  unfold detect
  exact detectWith_reported hL.ord h (templates_unit c) _ _ _ _ _ (fun hb => ⟨hc.minorBonus hb, hn⟩)

/-- running totals of the segment vote: all keys, scores that never overflow however many segments vote -/
structure Tally (a : List (Key × F32)) : Prop where
  keys : a.map Prod.fst = allKeys
  range : ∀ q ∈ a, Within (pow2 116) q.2

theorem add_sat116 {a x : F32} (ha : Within (pow2 116) a) (hx : Within (pow2 91) x) : Within (pow2 116) (a + x) := by
  obtain ⟨v, hv, rfl, v1⟩ := ha
  obtain ⟨u, hu, rfl, u1⟩ := hx
  have hr : |rndQ (v + u)| ≤ pow2 116 := by
    rw [abs_rndQ]
    refine le_trans (rndQ_mono (le_trans (abs_add_le v u) (add_le_add v1 u1))) (le_of_eq ?_)
    decide +kernel
  have hlt : |rndQ (v + u)| < pow2 128 := lt_of_le_of_lt hr (pow2_lt (by norm_num))
  exact ⟨_, ⟨onGrid_rndQ _, hlt⟩, by rw [add_fin, rnd_of_lt hlt], hr⟩

theorem tally_fold {w : F32} (w0 : 0 ≤ w) (w1 : w ≤ 1) : ∀ (l a : List (Key × F32)), (∀ p ∈ l, Within (pow2 91) p.2) → Tally a →
    Tally (l.foldl (fun a p => a.map (fun q => if q.1 = p.1 then (q.1, q.2 + p.2 * w) else q)) a) := by
  intro l
  induction l with
  | nil => intro a _ h; exact h
  | cons p l ih =>
    intro a hl h
    rw [List.foldl_cons]
    refine ih _ (fun q hq => hl q (by simp [hq])) ⟨?_, ?_⟩
    · have := fold_add_keys w [p] a
      rw [List.foldl_cons, List.foldl_nil] at this
      rw [this, h.keys]
    · intro q hq
      obtain ⟨q', hq', rfl⟩ := List.mem_map.1 hq
      split_ifs
      · have hw : Within 1 w := by
          rw [zero_def] at w0; rw [one_def] at w1
          obtain ⟨v, hv, e, v0, v1⟩ := between_cases w0 w1
          exact ⟨v, hv, e, by rwa [abs_of_nonneg v0]⟩
        exact add_sat116 (h.range q' hq')
          (Within.mul (grid_pow2 (by norm_num) (by norm_num)) (by rw [mul_one]) (hl p (by simp)) hw)
      · exact h.range q' hq'

theorem voteLoop_ok {L : Lib} (hL : KeyLib L) {c : Config} (hc : KeyCfg c) {cs : List (List F32)} {w : Option (List F32)}
    (h : ChromaInput cs w) (hn : cs.length ≤ 2 ^ 64) {minC : F32} {len : ℕ} (hl : 0 < len) : ∀ (starts : List ℕ) (acc : List (Key × F32) × ℕ),
    (∀ s ∈ starts, s + len ≤ cs.length) → Tally acc.1 →
    ∃ acc', segLoop (detect L c) cs w minC len starts acc = .ok acc' ∧ Tally acc'.1 := by
  intro starts
  induction starts with
  | nil => intro acc _ ht; exact ⟨acc, rfl, ht⟩
  | cons s ss ih =>
    intro acc hs ht
    have hfit := hs s (by simp)
    have hw := window_input h hl hfit
    obtain ⟨r, er, hr⟩ := detect_ok hL hc hw (by rw [List.length_take, List.length_drop]; omega)
    obtain ⟨q, eq, q0, q1⟩ := reported_clarity hr
    have hstep : segLoop (detect L c) cs w minC len (s :: ss) acc =
        segLoop (detect L c) cs w minC len ss (addSegment minC q acc r) := by
      rw [segLoop, slice_ok (by omega) hfit, R.ok_bind]
      rcases w with _ | ws
      · dsimp only
        rw [Nat.add_sub_cancel_left, R.pure_eq_ok, R.ok_bind]
        have e : segWeights none s len = none := rfl
        rw [e] at er
        rw [er, R.ok_bind, eq, R.ok_bind]
      · have hwl := h.len ws rfl
        dsimp only
        rw [slice_ok (by omega) (by omega), R.ok_bind, Nat.add_sub_cancel_left, R.pure_eq_ok, R.ok_bind]
        have e : segWeights (some ws) s len = some ((ws.drop s).take len) := by
          simp only [segWeights, Option.bind_some]
          rw [if_pos (by omega)]
        rw [e] at er
        rw [er, R.ok_bind, eq, R.ok_bind]
    rw [hstep]
    refine ih _ (fun t ht' => hs t (by simp [ht'])) ?_
    unfold addSegment
    split_ifs
    · exact tally_fold q0 q1 _ _ hr.range ht
    · exact ht

theorem tally_init : Tally (allKeys.map (fun k => (k, (0 : F32)))) := by
  refine ⟨keys_init, fun q hq => ?_⟩
  obtain ⟨k, -, rfl⟩ := List.mem_map.1 hq
  exact ⟨0, grid_zero, zero_def, by rw [abs_zero]; exact (pow2_pos _).le⟩

theorem sum24 : ∀ (l : List F32) (k : ℕ) (a : F32), k + l.length ≤ 24 → Within ((k : ℚ) * pow2 116) a →
    (∀ x ∈ l, Within (pow2 116) x) → Within (pow2 126) (l.foldl (· + ·) a) := by
  have hstep : ∀ k : ℕ, k < 25 → OnGrid ((k : ℚ) * pow2 116) ∧ |(k : ℚ) * pow2 116| < pow2 128 ∧ (k : ℚ) * pow2 116 ≤ pow2 126 := by
    decide +kernel
  intro l
  induction l with
  | nil => intro k a hk ha _; exact ha.mono (hstep k (by simp at hk; omega)).2.2
  | cons x l ih =>
    intro k a hk ha h
    simp only [List.length_cons] at hk
    obtain ⟨g1, g2, -⟩ := hstep (k + 1) (by omega)
    exact ih (k + 1) (a + x) (by omega)
      (Within.add ⟨g1, g2⟩ (by push_cast; rw [_root_.add_mul, one_mul]) ha (h x (by simp))) (fun y hy => h y (by simp [hy]))

theorem tally_clarity {l : List (Key × F32)} (hk : (l.map Prod.fst).Perm allKeys) (hr : ∀ q ∈ l, Within (pow2 116) q.2) :
    ∃ q, keyClarity l = .ok q ∧ 0 ≤ q ∧ q ≤ 1 := by
  have h120 := grid_pow2 (k := 120) (by norm_num) (by norm_num)
  have h126 := grid_pow2 (k := 126) (by norm_num) (by norm_num)
  refine clarity_unit l (fun p hp => ?_) ?_
  · rw [rnd_val h120]
    exact (within_iff h120 _).1 ((hr p hp).mono (pow2_le (by norm_num)))
  have hl : l.length = 24 := by
    have := hk.length_eq; rw [List.length_map] at this; exact this.trans (by decide +kernel)
  rw [rnd_val h126]
  refine (within_iff h126 _).1 (sum24 (l.map Prod.snd) 0 0 (by rw [List.length_map, hl])
    ⟨0, grid_zero, zero_def, by rw [abs_zero]; exact _root_.mul_nonneg (Nat.cast_nonneg _) (pow2_pos _).le⟩ (fun x hx => ?_))
  obtain ⟨p, hp, rfl⟩ := List.mem_map.1 hx
  exact hr p hp

/-- what the later code needs of a detection: a key, a confidence in `[0,1]`, and a clarity -/
def Usable (strict : Prop) (r : Res) : Prop :=
  ValidKey r.key ∧ InUnit r.conf ∧ ∃ q, keyClarity r.all = .ok q ∧ UnitOrNaN q ∧ (strict → InUnit q)

theorem usable_reported {strict : Prop} {r : Res} (hr : Reported r) : Usable strict r := by
  obtain ⟨q, eq, hq⟩ := reported_clarity hr
  exact ⟨hr.valid, hr.conf, q, eq, Or.inr hq, fun _ => hq⟩

theorem segVote_ok {L : Lib} (hL : KeyLib L) {c : Config} (hc : KeyCfg c) {cs : List (List F32)} {w : Option (List F32)}
    (h : ChromaInput cs w) (hn : cs.length ≤ 2 ^ 64) (hon : segOn c cs.length = true) : ∃ r, segVote L c cs w = .ok r ∧ ∀ strict, Usable strict r := by
  unfold segOn at hon
  simp only [Bool.and_eq_true, decide_eq_true_eq] at hon
  have hmax : c.segLen ≤ Nat.max c.segLen 1 := Nat.le_max_left _ _
  have hlen : Nat.min c.segLen cs.length = c.segLen := Nat.min_eq_left (by omega)
  unfold segVote
  dsimp only
  rw [hlen]
  have hhop : 0 < Nat.max (Nat.min c.segHop c.segLen) 1 := Nat.lt_of_lt_of_le Nat.one_pos (Nat.le_max_right _ _)
  obtain ⟨acc, ea, ht⟩ := voteLoop_ok hL hc h hn (minC := F32.clamp c.segClarity 0 1) (len := c.segLen) (by omega)
    (KeyDet.segStarts cs.length c.segLen (Nat.max (Nat.min c.segHop c.segLen) 1)) (allKeys.map (fun k => (k, 0)), 0)
    (fun s hs => ((mem_segStarts hhop).1 hs).1) tally_init
  rw [ea, R.ok_bind]
  split_ifs
  · obtain ⟨r, er, hr⟩ := detect_ok hL hc h hn
    exact ⟨r, er, fun _ => usable_reported hr⟩
  · have hnan : ∀ p ∈ acc.1, p.2 ≠ nan := fun p hp => (ht.range p hp).ne_nan
    unfold sortDescP
    rw [sortMeetsNaN_false hnan]
    simp only [Bool.false_eq_true, if_false]
    have hp : (sortDesc Prod.snd acc.1).Perm acc.1 := sortDesc_perm _
    have hk : ((sortDesc Prod.snd acc.1).map Prod.fst).Perm allKeys := (hp.map _).trans (by rw [ht.keys])
    have hr : ∀ q ∈ sortDesc Prod.snd acc.1, Within (pow2 116) q.2 := fun q hq => ht.range q (mem_sortDesc.1 hq)
    refine ⟨_, rfl, fun strict => ?_⟩
    obtain ⟨b, s, eb, es, hb, -, -, m0, m1⟩ := ranked_parts hk (fun p hp => ⟨(hr p hp).ne_nan, (hr p hp).ne_inf _⟩) (sortDesc_pairwise (fun p hp => hnan p hp))
    obtain ⟨q, eq, hq⟩ := tally_clarity hk hr
    refine ⟨?_, ?_, q, eq, Or.inr hq, fun _ => hq⟩
    · rw [eb]; exact (validKey_iff _).2 (hk.mem_iff.1 (List.mem_map_of_mem hb))
    · show InUnit (margin _ _)
      rw [eb, es]; exact ⟨m0, m1⟩

theorem clarity_total {l : List (Key × F32)} (h : ∀ p ∈ l, p.2 ≠ nan) : ∃ q, keyClarity l = .ok q ∧ UnitOrNaN q := by
  have : ∃ q, keyClarity l = .ok q := by
    by_cases h2 : 2 ≤ l.length
    · obtain ⟨_, _, _, _, _, _, _, e⟩ := clarity_eq h2 h
      exact ⟨_, e⟩
    · match l, h2 with
      | [], _ => exact ⟨_, rfl⟩
      | [_], _ => exact ⟨_, rfl⟩
      | _ :: _ :: _, h2 => simp at h2
  obtain ⟨q, e⟩ := this
  exact ⟨q, e, clarity_uon e⟩

/-- a ranking of all keys contains no NaN -/
theorem ranked_numbers {l : List (Key × F32)} (hc : Complete l) (hs : l.Pairwise (fun a b => b.2 ≤ a.2)) : ∀ p ∈ l, p.2 ≠ nan := by
  have key : ∀ k, ValidKey k → ∃ p ∈ l, p.1 = k := by
    intro k hk
    have := hc k
    rw [if_pos hk] at this
    obtain ⟨p, hp⟩ := List.exists_mem_of_length_pos (l := l.filter (fun p => decide (p.1 = k))) (by omega)
    rw [List.mem_filter, decide_eq_true_eq] at hp
    exact ⟨p, hp.1, hp.2⟩
  obtain ⟨a, ha, ea⟩ := key (.major 0) ((validKey_iff _).2 (by decide +kernel))
  obtain ⟨b, hb, eb⟩ := key (.major 1) ((validKey_iff _).2 (by decide +kernel))
  match l, hs with
  | [], _ => cases ha
  | [x], _ =>
    rw [List.mem_singleton] at ha hb
    rw [ha] at ea; rw [hb, ea] at eb
    exact absurd eb (by decide)
  | x :: y :: l, hs =>
    intro p hp
    have h1 := (List.pairwise_cons.1 hs).1
    rcases List.mem_cons.1 hp with rfl | hp
    · exact ne_nan_right (h1 y (by simp))
    · exact ne_nan_left (h1 p hp)

theorem keyCall_ok {L : Lib} (hL : KeyLib L) {c : Config} (hc : KeyCfg c) {cs : List (List F32)} {w : Option (List F32)}
    (h : ChromaInput cs w) (hn : cs.length ≤ 2 ^ 64) : ∃ r, keyCall L c cs w = .ok (some r) ∧
      Usable (c.enableEnsemble = false ∧ c.enableMultiScale = false) r := by
  unfold keyCall
  by_cases h1 : c.enableEnsemble = true
  · rw [if_pos h1]
    obtain ⟨⟨k0, k1⟩, t0, t1⟩ := hc.ensemble h1
    obtain ⟨r, er, -, hv, hf, -, hu⟩ := C61_ensemble L.ord L.ord2 hL.ord hL.ord2 cs w h c.ensembleKK c.ensembleTemp k0 k1 t0 t1
    obtain ⟨q, eq, hq⟩ := clarity_total (fun p hp => ne_nan_of_isFinite (hf p hp))
    rw [er]
    exact ⟨r, rfl, hv, hu, q, eq, hq, fun hs => absurd (h1.symm.trans hs.1) (by simp)⟩
  rw [if_neg h1]
  by_cases h2 : multiScaleOn c cs.length = true
  · rw [if_pos h2]
    unfold multiScaleOn at h2
    simp only [Bool.and_eq_true, decide_eq_true_eq] at h2
    obtain ⟨r, er, hcomp, hsort, hv, -, hu⟩ := C61_multi_scale L.ord hL.ord cs (templates c) w h (templates_unit c) c.multiScaleLens h2.1.2
      (Nat.max c.multiScaleHop 1) (F32.clamp c.multiScaleClarity 0 1)
      (if c.multiScaleWeights = [] then none else some c.multiScaleWeights) (fun w hw x hx => by
        split_ifs at hw
        cases hw
        exact hc.scales h2.1.1 x hx) c.enableMode c.thirdMargin (if c.enableMode then c.flipMin else 0)
      c.enableMinorBonus c.minorBonusWeight (fun hb => ⟨hc.minorBonus hb, hn⟩)
    rw [er]
    have hn := ranked_numbers hcomp hsort
    obtain ⟨q, eq, hq⟩ := clarity_total hn
    exact ⟨r, rfl, hv, hu, q, eq, hq, fun hs => absurd (h2.1.1.symm.trans hs.2) (by simp)⟩
  rw [if_neg h2]
  by_cases h3 : segOn c cs.length = true
  · rw [if_pos h3]
    obtain ⟨r, er, hr⟩ := segVote_ok hL hc h hn h3
    rw [er]
    exact ⟨r, rfl, hr _⟩
  · rw [if_neg h3]
    obtain ⟨r, er, hr⟩ := detect_ok hL hc h hn
    rw [er]
    exact ⟨r, rfl, usable_reported hr⟩

theorem detectWith_empty (ord : List (Key × F32) → List (Key × F32)) (T : Templates) (w : Option (List F32)) (modeOn bonus : Bool)
    (tm fm bw : F32) : detectWith ord [] T w modeOn tm fm bonus bw = R.err .invalidInput := by
  unfold detectWith
  split_ifs <;> rfl

/-- no chroma frames: every detector reports an error, which the analysis turns into "no key" -/
theorem keyCall_empty (L : Lib) (c : Config) (w : Option (List F32)) : keyCall L c [] w = .ok none := by
  have h3 : segOn c ([] : List (List F32)).length = false := by
    have h : decide (Nat.max c.segLen 1 ≤ ([] : List (List F32)).length) = false := by
      rw [decide_eq_false_iff_not, List.length_nil]
      have := Nat.le_max_right c.segLen 1
      exact fun h => absurd (this.trans h) (by omega)
    unfold segOn
    rw [h, Bool.and_false, Bool.false_and, Bool.false_and]
  have h4 : attempt (detect L c [] w) = .ok none := by
    unfold detect; rw [detectWith_empty]; rfl
  unfold keyCall
  rw [h3, h4]
  by_cases h1 : c.enableEnsemble = true
  · rw [if_pos h1]; rfl
  · rw [if_neg h1]
    by_cases h2 : multiScaleOn c ([] : List (List F32)).length = true
    · rw [if_pos h2]
      split_ifs <;> rfl
    · rw [if_neg h2]; rfl

theorem keyOf_ok {L : Lib} (hL : KeyLib L) {c : Config} (hc : KeyCfg c) {cs : List (List F32)} {es : List F32}
    (hl : cs.length = es.length) (hu : UnitRows cs) (he : Energies es) (hlen : cs.length ≤ 2 ^ 30 + 2 ^ 29) :
    ∃ k, keyOf L c cs es = .ok k ∧ ValidKey k.1 ∧ InUnit k.2.1 ∧ UnitOrNaN k.2.2 ∧
      (c.enableEnsemble = false → c.enableMultiScale = false → InUnit k.2.2) := by
  have h0 : InUnit (0 : F32) := by unfold InUnit; decide +kernel
  obtain ⟨c1, e1, l1, u1⟩ := postChroma_ok hL (c := c) hu hlen
  obtain ⟨c2, s2, e2, l2, u2, v2, n2⟩ := edgeTrim_ok (c := c) (l1.trans hl) u1 he
  unfold keyOf
  rw [e1, R.ok_bind, e2, R.ok_bind]
  dsimp only
  by_cases hne : c2 = []
  · rw [hne, keyCall_empty, R.ok_bind]
    exact ⟨_, rfl, (validKey_iff _).2 (by decide +kernel), h0, .inr h0, fun _ _ => h0⟩
  · have hin : ChromaInput c2 (frameWeights L.M c c2 s2) := ⟨hne, u2, fun w hw => (frameWeights_ok hL hc v2 hw).1,
      fun w hw => (frameWeights_ok hL hc v2 hw).2⟩
    obtain ⟨r, er, hv, hu', q, eq, hq, hq'⟩ := keyCall_ok hL hc hin (by omega)
    rw [er, R.ok_bind]
    dsimp only
    rw [eq, R.ok_bind]
    exact ⟨_, rfl, hv, hu', hq, fun a b => hq' ⟨a, b⟩⟩

/-- the key branch succeeds on full-scale audio -/
theorem keyPart_ok {L : Lib} (hL : KeyLib L) {c : Config} (hc : KeyCfg c) {sr : ℕ} (hsr : 1000 ≤ sr) (hsr' : sr ≤ 2 ^ 32)
    {x : List F32} (hx : FullScale x) (hlen : x.length ≤ 2 ^ 30) {spec : List (List F32)}
    (hspec : c.enableKeyStft = false → spec.length ≤ 2 ^ 30 ∧ MagsTo 23 spec (c.frame / 2 + 1) ∧
      (c.frame ≤ 2 ^ 14 → MagsTo 16 spec (c.frame / 2 + 1))) {bts : List F32}
    (hbts : c.enableBeatSync = true → bts.length ≤ 2 ^ 30 + 2 ^ 29) :
    ∃ k, keyPart L c x spec sr bts = .ok k ∧ ValidKey k.1 ∧ InUnit k.2.1 ∧ UnitOrNaN k.2.2 ∧
      (c.enableEnsemble = false → c.enableMultiScale = false → InUnit k.2.2) := by
  have h0 : InUnit (0 : F32) := by unfold InUnit; decide +kernel
  unfold keyPart
  split_ifs with hf
  swap
  · exact ⟨_, rfl, (validKey_iff _).2 (by decide +kernel), h0, .inr h0, fun _ _ => h0⟩
  have hks : ∃ ks, keySpec L c x spec = .ok ks ∧ ks.length ≤ 2 ^ 30 ∧ MagsTo 23 ks (keyFft c / 2 + 1) ∧
      (keyFft c ≤ 2 ^ 14 → MagsTo 16 ks (keyFft c / 2 + 1)) := by
    unfold keySpec
    by_cases hk : c.enableKeyStft = true
    · rw [if_pos hk]
      have hlen' : (if x.length < keyFft c then 0 else (x.length - keyFft c) / keyHopOf c + 1) ≤ 2 ^ 30 := by
        have := Nat.div_le_self (x.length - keyFft c) (keyHopOf c)
        have := hc.frame2
        split_ifs <;> omega
      obtain ⟨rows, e, hl, hr⟩ := stft_plain hL.cos hL.sfft hx hc.frame2 hc.frame hc.hop
      rw [e]
      refine ⟨rows, rfl, by rw [hl]; exact hlen', hr, fun h14 => ?_⟩
      obtain ⟨rows', e', -, hr'⟩ := stft_mags hL.cos hL.sfft hx hc.frame2 (k := 14) (by norm_num) h14 hc.hop
      rw [e] at e'
      cases e'
      exact hr'
    · rw [if_neg hk]
      obtain ⟨a, b, d⟩ := hspec (by simpa using hk)
      have e : keyFft c = c.frame := by unfold keyFft; rw [if_neg hk]
      exact ⟨spec, rfl, a, by rw [e]; exact b, by rw [e]; exact d⟩
  obtain ⟨ks, e1, l1, m1, n1⟩ := hks
  have hfr := hc.frame
  obtain ⟨ks', e2, l2, m2⟩ := specForKey_ok hL hc hsr (by omega) (le_refl 23) m1 (by omega)
  rw [e1, R.ok_bind, e2, R.ok_bind]
  by_cases hlog : c.enableLogFreq = true ∧ ks' ≠ []
  · obtain ⟨hl, hne⟩ := hlog
    have h14 := hc.logFreq hl
    obtain ⟨ks'', e2', -, m2'⟩ := specForKey_ok hL hc hsr (by omega) (by norm_num : 16 ≤ 23) (n1 h14) (by omega)
    rw [e2] at e2'
    cases e2'
    obtain ⟨s, off, cs, e3, e4, l3, l4, u, v⟩ := logChroma_ok hL.sane hL.mono hl hsr hsr' hne (by have := hc.frame2; omega) (by omega)
      (by omega) m2'
    obtain ⟨t, et, -⟩ := tuning_ok hL hc hsr hsr' (by omega) (by omega) m2 true
    rw [e3, R.ok_bind, Option.isSome_some, et, R.ok_bind]
    have hch : chromaCall L c sr ks' (some (s, off)) t bts = .ok (cs, s.map Chroma.energy) := by
      unfold chromaCall
      rw [if_neg (by simp)]; dsimp only; rw [e4]; rfl
    rw [hch]
    obtain ⟨k, ek, hk⟩ := keyOf_ok hL hc (by rw [List.length_map, l3, l4]) u v (by omega)
    exact ⟨k, ek, hk⟩
  · have hlog' : logFreq L c sr ks' = .ok none := by
      unfold logFreq
      rw [if_neg]
      simpa using hlog
    obtain ⟨t, et, ht⟩ := tuning_ok hL hc hsr hsr' (by omega) (by omega) m2 false
    obtain ⟨cs, es, e3, l3, l4, u, v⟩ := chroma_ok hL hc hsr' (by omega) (by omega) m2 (by omega) (fun hb => by
      have h14 := hc.beatSync hb
      obtain ⟨ks'', e2', -, m2'⟩ := specForKey_ok hL hc hsr (by omega) (by norm_num : 16 ≤ 23) (n1 h14) (by omega)
      rw [e2] at e2'
      cases e2'
      exact ⟨by omega, m2'⟩) ht hbts
    rw [hlog', R.ok_bind, Option.isSome_none, et, R.ok_bind, e3]
    obtain ⟨k, ek, hk⟩ := keyOf_ok hL hc l3 u v l4
    exact ⟨k, ek, hk⟩

end Verif.Props
