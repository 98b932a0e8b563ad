/-
Tempogram estimator (C21, C22): success on ordinary inputs, NaN-free scores.
-/
import Verif.Props.TempoEst

namespace Verif.Props
open Verif F32 Tempogram Novelty

/-! ### Ordinary inputs -/

/-- at least two frames of equal, positive length with magnitudes that are NaN or in `[0, 2^30]` -/
structure PlainSpec (spec : List (List F32)) : Prop where
  valid : Valid spec
  two : 2 ≤ spec.length
  len : spec.length ≤ 2 ^ 62
  bins2 : 2 ≤ (spec.headD []).length
  bins : (spec.headD []).length ≤ 2 ^ 31
  plain : ∀ fr ∈ spec, ∀ x ∈ fr, Plain x

/-- a 32-bit sample rate and a search range whose scan ends (C23) -/
structure SaneParams (p : Params) : Prop where
  sr0 : 0 < p.sr
  sr : p.sr ≤ 2 ^ 32
  hop : 0 < p.hop
  min : 1 ≤ p.minB
  lt : p.minB < p.maxB
  fin : p.maxB.isFinite = true
  res0 : 0 < p.res
  res : p.res.isFinite = true
  steps : p.maxB.val ≤ 2 ^ 22 * p.res.val

/-- the FFT of a windowed curve with values in `[0,1]` has finite power in every bin -/
def FftTame (M : Libm) (fft : List F32 → ℕ → F32 × F32) : Prop :=
  ∀ nov : List F32, nov ≠ [] → (∀ x ∈ nov, InUnit x) → ∀ k, (power (fft (fftInput M nov) k)).isFinite = true

/-- no overflow from weights or bonus, no NaN weight where it is used unchecked, and a mel range below Nyquist -/
structure TameCfg (sr : ℕ) (c : BandCfg) : Prop where
  nwS : Weight c.nwS
  nwE : Weight c.nwE
  nwH : Weight c.nwH
  full : c.wFull ≤ rnd (pow2 80)
  low : Weight c.wLow
  mid : Weight c.wMid
  high : Weight c.wHigh
  melW : c.wMel ≤ rnd (pow2 80)
  bonus : c.bonus = nan ∨ c.bonus ≤ rnd (pow2 80)
  mel : c.mel = true → F32.max c.melFmin 0 + 1 ≤ F32.ofNat sr * 0.5

/-- what the two tempograms of an ordinary curve satisfy -/
structure TameV (v : Variant) : Prop where
  w : v.w ≤ rnd (pow2 80)
  fft : ∀ e ∈ v.fft, 0 ≤ e.2 ∧ e.2.isFinite = true
  ac : ∀ e ∈ v.ac, 0 ≤ e.2 ∧ e.2.isFinite = true
  mf : v.maxFft = peakOf v.fft
  ma : v.maxAc = peakOf v.ac

/-! ### One variant -/

theorem sq_nonneg_nn (x : F32) (h : x * x ≠ nan) : 0 ≤ x * x := by
  rcases x with _ | (_ | _) | ⟨v, hv⟩
  · exact absurd rfl h
  · decide +kernel
  · decide +kernel
  · rw [mul_fin, zero_def]; exact fin_le_rnd (mul_self_nonneg v)

theorem power_nonneg {z : F32 × F32} (h : (power z).isFinite = true) : 0 ≤ power z := by
  unfold power at *
  have hn : z.1 * z.1 + z.2 * z.2 ≠ nan := by intro e; rw [e] at h; simp [F32.isFinite] at h
  have h1 : z.1 * z.1 ≠ nan := by intro e; rw [e] at hn; simp at hn
  have h2 : z.2 * z.2 ≠ nan := by intro e; rw [e] at hn; simp at hn
  exact F32.add_nonneg (sq_nonneg_nn _ h1) (sq_nonneg_nn _ h2)

theorem variant_ok {M : Libm} {fft} {p : Params} (hp : SaneParams p) (hf : FftTame M fft) {nov : List F32} (hn : nov ≠ [])
    (hu : ∀ x ∈ nov, InUnit x) (hl : nov.length ≤ 2 ^ 62) (full : Bool) {w : F32} (hw : w ≤ rnd (pow2 80)) :
    ∃ N v, (∀ fuel, N ≤ fuel → variantOf M fft fuel p full w nov = .ok v) ∧ TameV v ∧ v.ac ≠ [] ∧
      ∀ e ∈ v.ac, InBpm p e.1 := by
  have hok : ScanOk nov p.sr p.hop p.minB p.maxB :=
    ⟨hn, hp.sr0, hp.hop, fun h => not_lt_of_le (F32.le_trans hp.min h) zero_lt_one, fun h => not_lt_of_le h hp.lt⟩
  obtain ⟨N, a, ha⟩ := C23_terminates_partial nov p.sr p.hop p.minB p.maxB p.res hok hp.sr hl hp.min hp.fin hp.res0 hp.res
    hp.steps
  obtain ⟨f, hf1, -, hf3, -⟩ := C23_fft M fft nov p.sr p.hop p.minB p.maxB hok
  obtain ⟨⟨n, hperm, hg1, hg2⟩, hr, -⟩ := C23_autocorr N nov p.sr p.hop p.minB p.maxB p.res a (ha N (Nat.le_refl _))
  refine ⟨N, ⟨full, w, f, a, peakOf f, peakOf a⟩, fun fuel hfu => ?_, ⟨hw, fun e he => ?_, fun e he => ?_, rfl, rfl⟩, ?_, hr⟩
  · unfold variantOf
    rw [hf1, R.ok_bind, ha fuel hfu, R.ok_bind]; rfl
  · unfold fftTempogram at hf1
    obtain ⟨h1, h2, h3, h4, h5⟩ := hok
    rw [if_neg h1, if_neg (by omega), if_neg (by omega), if_neg (by tauto)] at hf1
    cases hf1
    rw [mem_sortDesc] at he
    obtain ⟨k, -, rfl⟩ := List.mem_map.1 (List.mem_filter.1 he).1
    have := hf nov hn hu k
    exact ⟨power_nonneg this, this⟩
  · obtain ⟨k, -, rfl⟩ := List.mem_map.1 (hperm.mem_iff.1 he)
    obtain ⟨l0, l1⟩ := lagMean_range hu hl (lagAt p.sr p.hop (gridBpm p.minB p.res k))
    exact ⟨l0, le_finite l0 l1 (by decide +kernel)⟩
  · intro e
    dsimp only at e
    rw [e] at hperm
    have := hperm.length_eq
    rw [List.length_map, List.length_range, List.length_nil] at this
    rw [← this] at hg2
    exact hg2 (F32.le_of_lt hp.lt)

/-! ### The curves -/

theorem plain_band {fr : List F32} (h : ∀ x ∈ fr, Plain x) (s e : ℕ) : ∀ x ∈ band s e fr, Plain x :=
  fun x hx => h x (List.mem_of_mem_take (List.mem_of_mem_drop hx))

theorem band_curves {M : Libm} (hM : LnSane M) {spec : List (List F32)} (hs : PlainSpec spec) (k s e : ℕ) :
    ∃ a b c, superfluxBand M spec k s e = .ok a ∧ energyFluxBand spec s e = .ok b ∧ hfcBand spec s e = .ok c ∧
      (∀ x ∈ a, InUnit x) ∧ (∀ x ∈ b, InUnit x) ∧ (∀ x ∈ c, InUnit x) ∧ a.length ≤ 2 ^ 62 := by
  have g126 : (rnd (pow2 126)).isFinite = true := by decide +kernel
  have z126 : (0 : F32) ≤ rnd (pow2 126) := by decide +kernel
  have h2 : ¬ spec.length < 2 := by have := hs.two; omega
  by_cases hc : Nat.min e (spec.headD []).length ≤ Nat.min s (spec.headD []).length + 1
  · refine ⟨[], [], [], ?_, ?_, ?_, by simp, by simp, by simp, by simp⟩
    · unfold superfluxBand
      rw [if_neg h2, check_valid hs.valid]
      show (if _ then (.ok [] : R (List F32)) else _) = _
      rw [if_pos hc]
    · unfold energyFluxBand
      rw [if_neg h2, check_valid hs.valid]
      show (if _ then (.ok [] : R (List F32)) else _) = _
      rw [if_pos hc]
    · unfold hfcBand
      rw [if_neg h2, check_valid hs.valid]
      show (if _ then (.ok [] : R (List F32)) else _) = _
      rw [if_pos hc]
  · refine ⟨peakNorm (pairs (superStep (Nat.max k 1) (Nat.min s (spec.headD []).length) (Nat.min e (spec.headD []).length))
        (spec.map (fun fr => fr.map (logMag M)))),
      peakNorm (rise (spec.map (fun fr => energy (band (Nat.min s (spec.headD []).length) (Nat.min e (spec.headD []).length) fr)))),
      peakNorm (rise (spec.map (fun fr => hfcFrom (Nat.min s (spec.headD []).length)
        (band (Nat.min s (spec.headD []).length) (Nat.min e (spec.headD []).length) fr)))), ?_, ?_, ?_, ?_, ?_, ?_, ?_⟩
    · unfold superfluxBand
      rw [if_neg h2, check_valid hs.valid]
      show (if _ then (.ok [] : R (List F32)) else _) = _
      rw [if_neg hc]
    · unfold energyFluxBand
      rw [if_neg h2, check_valid hs.valid]
      show (if _ then (.ok [] : R (List F32)) else _) = _
      rw [if_neg hc]
    · unfold hfcBand
      rw [if_neg h2, check_valid hs.valid]
      show (if _ then (.ok [] : R (List F32)) else _) = _
      rw [if_neg hc]
    · refine (peakNorm_spec (pairs_all (fun a b _ _ => superStep_nonneg _ _ _ a b))).2.2 (pairs_all ?_)
      intro a b ha hb'
      obtain ⟨fa, hfa, rfl⟩ := List.mem_map.1 ha
      obtain ⟨fb, hfb, rfl⟩ := List.mem_map.1 hb'
      exact superStep_finite (logFrame_small hM (hs.plain fa hfa)) (logFrame_small hM (hs.plain fb hfb))
    · refine (peakNorm_spec (rise_nonneg _)).2.2 (fun x hx => le_finite (rise_nonneg _ x hx) (rise_bound g126 z126 ?_ x hx) g126)
      intro y hy
      obtain ⟨fr, hfr, rfl⟩ := List.mem_map.1 hy
      exact energy_bound (plain_band (hs.plain fr hfr) _ _)
    · refine (peakNorm_spec (rise_nonneg _)).2.2 (fun x hx => le_finite (rise_nonneg _ x hx) (rise_bound g126 z126 ?_ x hx) g126)
      intro y hy
      obtain ⟨fr, hfr, rfl⟩ := List.mem_map.1 hy
      refine hfcFrom_bound (plain_band (hs.plain fr hfr) _ _) ?_
      have e1 := hs.valid.2 fr hfr
      have e2 := hs.bins
      have e3 : Nat.min s (spec.headD []).length ≤ (spec.headD []).length := Nat.min_le_right _ _
      have e4 : (band (Nat.min s (spec.headD []).length) (Nat.min e (spec.headD []).length) fr).length ≤ fr.length := by
        unfold band; rw [List.length_drop, List.length_take]; omega
      omega
    · rw [(peakNorm_spec (pairs_all (fun a b _ _ => superStep_nonneg _ _ _ a b))).1, pairs_length, List.length_map]
      have := hs.len; omega

theorem conditioned_ok {sr : ℕ} {cfg : Option BandCfg} (hc : ∀ c, cfg = some c → TameCfg sr c) {s e h : List F32}
    (h1 : ∀ x ∈ s, InUnit x) (h2 : ∀ x ∈ e, InUnit x) (h3 : ∀ x ∈ h, InUnit x) (hl : s.length ≤ 2 ^ 62) :
    (conditioned cfg s e h).length = Min.min (Min.min s.length e.length) h.length ∧
    ∀ x ∈ conditioned cfg s e h, InUnit x := by
  rcases cfg with _ | c
  · exact C26_combined_partial s e h 0.5 0.3 0.2 16 5 h1 h2 h3 (Or.inr (by decide +kernel)) (Or.inr (by decide +kernel))
      (Or.inr (by decide +kernel)) (by omega)
  · have := hc c rfl
    exact C26_combined_partial s e h _ _ _ _ _ h1 h2 h3 this.nwS this.nwE this.nwH (by omega)

theorem full_ok {M : Libm} (hM : LnSane M) {spec : List (List F32)} (hs : PlainSpec spec) {sr : ℕ} (hsr : 0 < sr)
    {cfg : Option BandCfg} (hc : ∀ c, cfg = some c → TameCfg sr c) :
    ∃ nov, fullNovelty M spec sr cfg = .ok nov ∧ nov ≠ [] ∧ nov.length ≤ 2 ^ 62 ∧ ∀ x ∈ nov, InUnit x := by
  obtain ⟨h1, h2, -, h4⟩ := C26_range_partial M hM spec sr ((cfg.map BandCfg.filter).getD 4) hsr hs.plain (fun fr hfr => by
    have := hs.valid.2 fr hfr; have := hs.bins; omega)
  obtain ⟨a, ea, la, ua⟩ := h4.2.1 hs.two hs.valid
  obtain ⟨b, eb, lb, ub⟩ := h1.2.1 hs.two hs.valid
  obtain ⟨c, ec, lc, uc⟩ := h2.2.1 hs.two hs.valid
  have hlen := hs.len
  have htwo := hs.two
  obtain ⟨hl, hu⟩ := conditioned_ok hc ua ub uc (by omega)
  refine ⟨conditioned cfg a b c, ?_, ?_, by omega, hu⟩
  · unfold fullNovelty
    rw [ea, R.ok_bind, eb, R.ok_bind, ec, R.ok_bind]; rfl
  · intro e
    rw [e, List.length_nil] at hl
    omega

theorem bandVariant_ok {M : Libm} {fft} {p : Params} (hM : LnSane M) (hp : SaneParams p) (hf : FftTame M fft)
    {spec : List (List F32)} (hs : PlainSpec spec) {c : BandCfg} (hc : TameCfg p.sr c) (s e : ℕ) {w : F32} (hw : Weight w) :
    ∃ N l, (∀ fuel, N ≤ fuel → bandVariant M fft fuel p spec c s e w = .ok l) ∧ ∀ v ∈ l, TameV v := by
  unfold bandVariant
  split_ifs with h1 h2
  · exact ⟨0, [], fun _ _ => rfl, by simp⟩
  · exact ⟨0, [], fun _ _ => rfl, by simp⟩
  · obtain ⟨a, b, d, ea, eb, ed, ua, ub, ud, hl⟩ := band_curves hM hs c.filter s e
    obtain ⟨hl', hu⟩ := conditioned_ok (cfg := some c) (fun c' h => by cases h; exact hc) ua ub ud hl
    rw [ea, eb, ed]
    simp only [R.ok_bind]
    split_ifs with h3
    · exact ⟨0, [], fun _ _ => rfl, by simp⟩
    · have hw' : w ≤ rnd (pow2 80) := by
        rcases hw with e | e
        · rw [e] at h1; simp [F32.isFinite] at h1
        · exact e
      obtain ⟨N, v, hv, ht, -⟩ := variant_ok hp hf h3 hu (by omega) false hw'
      refine ⟨N, [v], fun fuel hfu => ?_, by simpa using ht⟩
      rw [hv fuel hfu]; rfl

theorem bandVariants_ok {M : Libm} {fft} {p : Params} (hM : LnSane M) (hp : SaneParams p) (hf : FftTame M fft)
    {spec : List (List F32)} (hs : PlainSpec spec) {cfg : Option BandCfg} (hc : ∀ c, cfg = some c → TameCfg p.sr c) :
    ∃ N l, (∀ fuel, N ≤ fuel → bandVariants M fft fuel p spec cfg = .ok l) ∧ ∀ v ∈ l, TameV v := by
  unfold bandVariants
  rcases cfg with _ | c
  · exact ⟨0, [], fun _ _ => rfl, by simp⟩
  dsimp only
  split_ifs with h1
  · have hc' := hc c rfl
    generalize bandEdges c (F32.ofNat p.sr / F32.ofNat (Nat.max (((spec.headD []).length - 1) * 2) 2)) (spec.headD []).length = b
    obtain ⟨N1, l1, e1, t1⟩ := bandVariant_ok (fft := fft) hM hp hf hs hc' b.1 b.2.1 hc'.low
    obtain ⟨N2, l2, e2, t2⟩ := bandVariant_ok (fft := fft) hM hp hf hs hc' b.2.1 b.2.2.1 hc'.mid
    obtain ⟨N3, l3, e3, t3⟩ := bandVariant_ok (fft := fft) hM hp hf hs hc' b.2.2.1 b.2.2.2 hc'.high
    refine ⟨N1 + N2 + N3, l1 ++ l2 ++ l3, fun fuel hfu => ?_, ?_⟩
    · rw [e1 fuel (by omega), e2 fuel (by omega), e3 fuel (by omega)]; rfl
    · intro v hv
      rcases List.mem_append.1 hv with hv | hv
      · rcases List.mem_append.1 hv with hv | hv
        · exact t1 v hv
        · exact t2 v hv
      · exact t3 v hv
  · exact ⟨0, [], fun _ _ => rfl, by simp⟩

theorem melVariants_ok {M : Libm} {fft} {p : Params} (hM : LnSane M) (hp : SaneParams p) (hf : FftTame M fft)
    {spec : List (List F32)} (hs : PlainSpec spec) {cfg : Option BandCfg} (hc : ∀ c, cfg = some c → TameCfg p.sr c) :
    ∃ N l, (∀ fuel, N ≤ fuel → melVariants M fft fuel p spec cfg = .ok l) ∧ ∀ v ∈ l, TameV v := by
  unfold melVariants
  rcases cfg with _ | c
  · exact ⟨0, [], fun _ _ => rfl, by simp⟩
  dsimp only
  split_ifs with h1
  · have hc' := hc c rfl
    obtain ⟨a, ea, la, ua⟩ := (C26_mel_partial M hM spec p.sr c.nMels c.melFilter c.melFmin c.melFmax hp.sr0
      (fun _ => hs.bins2) (by have := hs.bins; omega) (hc'.mel h1) hs.plain).2.1 hs.two hs.valid
    rw [ea]
    simp only [R.ok_bind]
    have htwo := hs.two
    have hlen := hs.len
    have h3 : a ≠ [] := by rintro rfl; simp at la; omega
    obtain ⟨N, v, hv, ht, -⟩ := variant_ok hp hf h3 ua (by omega) false hc'.melW
    refine ⟨N, [v], fun fuel hfu => ?_, by simpa using ht⟩
    rw [if_neg h3, hv fuel hfu]; rfl
  · exact ⟨0, [], fun _ _ => rfl, by simp⟩

/-! ### NaN-free scores -/

theorem lookup_mem (t : List (F32 × F32)) (b tol : F32) : lookup t b tol = 0 ∨ ∃ e ∈ t, lookup t b tol = e.2 := by
  unfold lookup
  have key : ∀ (t : List (F32 × F32)) (a : F32 × F32),
      (t.foldl (fun (best : F32 × F32) e =>
        let d := (e.1 - b).abs
        if d ≤ tol ∧ d < best.1 then (d, e.2) else best) a).2 = a.2 ∨
      ∃ e ∈ t, (t.foldl (fun (best : F32 × F32) e =>
        let d := (e.1 - b).abs
        if d ≤ tol ∧ d < best.1 then (d, e.2) else best) a).2 = e.2 := by
    intro t
    induction t with
    | nil => intro a; exact Or.inl rfl
    | cons x t ih =>
      intro a
      rw [List.foldl_cons]
      rcases ih (if (x.1 - b).abs ≤ tol ∧ (x.1 - b).abs < a.1 then ((x.1 - b).abs, x.2) else a) with e | ⟨y, hy, e⟩
      · dsimp only at e ⊢
        rw [e]
        split_ifs
        · exact Or.inr ⟨x, by simp, rfl⟩
        · exact Or.inl rfl
      · exact Or.inr ⟨y, List.mem_cons_of_mem _ hy, e⟩
  exact key t _

theorem sup_unit {t : List (F32 × F32)} (h : ∀ e ∈ t, 0 ≤ e.2 ∧ e.2.isFinite = true) (b tol : F32) :
    InUnit (F32.clamp (lookup t b tol / peakOf t) 0 1) := by
  apply clamp01
  have h1 : (lookup t b tol).isFinite = true := by
    rcases lookup_mem t b tol with e | ⟨x, hx, e⟩
    · rw [e]; decide +kernel
    · rw [e]; exact (h x hx).2
  have h2 : (peakOf t).isFinite = true ∧ 0 < peakOf t := by
    have hh : ((t.headD (0, 1)).2).isFinite = true := by
      rcases t with _ | ⟨x, t⟩
      · decide +kernel
      · exact (h x (by simp)).2
    unfold peakOf
    constructor
    · rcases F32.max_eq_left_or_right ((t.headD (0, 1)).2) 1e-12 with e | e
      · rw [e]; exact hh
      · rw [e]; decide +kernel
    · refine F32.lt_of_lt_of_le (show (0 : F32) < 1e-12 by decide +kernel) (le_max_right (by decide +kernel))
  obtain ⟨v, hv, e1⟩ := isFinite_iff.1 h1
  obtain ⟨w, hw, e2⟩ := isFinite_iff.1 h2.1
  have hp := h2.2
  rw [e2, zero_def, fin_lt_fin] at hp
  rw [e1, e2, div_fin hp.ne']
  exact rnd_ne_nan _

theorem accumulate_bd {vs : List Variant} (hv : ∀ v ∈ vs, TameV v) {sup : Variant → F32} (hs : ∀ v ∈ vs, InUnit (sup v))
    (hl : vs.length ≤ 2 ^ 20) : Bd (accumulate vs sup) (pow2 100) := by
  obtain ⟨g, e80⟩ := g80w
  have hgrid : ∀ k : ℕ, k ≤ 2 ^ 20 → OnGrid (k * pow2 80) ∧ |(k : ℚ) * pow2 80| < pow2 128 := by
    intro k hk
    have hk' : (k : ℚ) ≤ 2 ^ 20 := by exact_mod_cast hk
    constructor
    · have := onGrid_of_scaled (m := k) (e := 80) (by rw [abs_of_nonneg (by omega)]; omega) (by omega)
      simpa using this
    · rw [abs_of_nonneg (by have := pow2_pos 80; positivity)]
      refine lt_of_le_of_lt (mul_le_mul_of_nonneg_right hk' (pow2_pos 80).le) ?_
      rw [pow2_eq, pow2_eq]; norm_num
  have key : ∀ (vs : List Variant), (∀ v ∈ vs, TameV v) → (∀ v ∈ vs, InUnit (sup v)) → ∀ (k : ℕ) (a : F32), k + vs.length ≤ 2 ^ 20 →
      Bd a (k * pow2 80) → Bd (vs.foldl (fun acc v => if v.w ≤ 0 then acc else acc + v.w * sup v) a) ((k + vs.length : ℕ) * pow2 80) := by
    intro vs
    induction vs with
    | nil => intro _ _ k a _ h; simpa using h
    | cons v vs ih =>
      intro hv hs k a hk ha
      rw [List.length_cons] at hk
      rw [List.foldl_cons, List.length_cons, show k + (vs.length + 1) = (k + 1) + vs.length by omega]
      refine ih (fun u hu => hv u (List.mem_cons_of_mem _ hu)) (fun u hu => hs u (List.mem_cons_of_mem _ hu)) (k + 1) _ (by omega) ?_
      have hp := pow2_pos 80
      split_ifs with h
      · obtain ⟨x, hx, e, x0, x1⟩ := ha
        refine ⟨x, hx, e, x0, le_trans x1 ?_⟩
        push_cast; linarith
      · have hw := (hv v (by simp)).w
        have h0 : 0 ≤ v.w := by
          have hn := ne_nan_left hw
          refine F32.le_of_not_lt zero_ne_nan hn ?_
          intro hlt; exact h (F32.le_of_lt hlt)
        have hb : Bd v.w (pow2 80) := bd_of (hA := g) h0 (e80 ▸ hw)
        have hm := bd_mul hb (bd_unit (hs v (by simp))) (C := pow2 80) (by rw [_root_.mul_one]) g
        refine bd_add ha hm ?_ (hgrid (k + 1) (by omega))
        push_cast; linarith
  unfold accumulate
  obtain ⟨x, hx, e, x0, x1⟩ := key vs hv hs 0 0 (by omega) ⟨0, grid_zero, zero_def, le_refl _, by simp⟩
  refine ⟨x, hx, e, x0, le_trans x1 ?_⟩
  rw [Nat.zero_add]
  have : (vs.length : ℚ) ≤ 2 ^ 20 := by exact_mod_cast hl
  refine le_trans (mul_le_mul_of_nonneg_right this (pow2_pos 80).le) ?_
  rw [pow2_eq, pow2_eq]; norm_num

theorem sum_bd {l : List F32} (h : ∀ x ∈ l, Bd x (pow2 80)) (hl : l.length ≤ 2 ^ 20) : (F32.sum l).isFinite = true := by
  have key : ∀ (l : List F32), (∀ x ∈ l, Bd x (pow2 80)) → ∀ (k : ℕ) (a : F32), k + l.length ≤ 2 ^ 20 →
      Bd a (k * pow2 80) → (l.foldl (· + ·) a).isFinite = true := by
    intro l
    induction l with
    | nil =>
      intro _ k a _ h
      obtain ⟨x, hx, e, -⟩ := h
      rw [List.foldl_nil, e]; rfl
    | cons x l ih =>
      intro hl k a hk ha
      rw [List.length_cons] at hk
      rw [List.foldl_cons]
      refine ih (fun u hu => hl u (List.mem_cons_of_mem _ hu)) (k + 1) _ (by omega) ?_
      have hk' : ((k + 1 : ℕ) : ℚ) ≤ 2 ^ 20 := by exact_mod_cast (by omega : k + 1 ≤ 2 ^ 20)
      refine bd_add ha (hl x (by simp)) (by push_cast; linarith) ⟨?_, ?_⟩
      · have := onGrid_of_scaled (m := ((k + 1 : ℕ) : ℤ)) (e := 80) (by rw [abs_of_nonneg (by omega)]; omega) (by omega)
        simpa using this
      · rw [abs_of_nonneg (by have := pow2_pos 80; positivity)]
        refine lt_of_le_of_lt (mul_le_mul_of_nonneg_right hk' (pow2_pos 80).le) ?_
        rw [pow2_eq, pow2_eq]; norm_num
  exact key l h 0 0 (by omega) ⟨0, grid_zero, zero_def, le_refl _, by simp⟩

theorem weightSum_ok {vs : List Variant} (hv : ∀ v ∈ vs, TameV v) (hl : vs.length ≤ 2 ^ 20) :
    (weightSum vs).isFinite = true ∧ 0 < weightSum vs := by
  obtain ⟨g, e80⟩ := g80w
  have hs : (F32.sum (vs.map (fun v => F32.max v.w 0))).isFinite = true := by
    refine sum_bd (fun x hx => ?_) (by rw [List.length_map]; exact hl)
    obtain ⟨v, hv', rfl⟩ := List.mem_map.1 hx
    exact bd_of (hA := g) (le_max_right zero_ne_nan) (e80 ▸ F32.max_le (hv v hv').w (by decide +kernel))
  unfold weightSum
  constructor
  · rcases F32.max_eq_left_or_right (F32.sum (vs.map (fun v => F32.max v.w 0))) 1e-6 with e | e
    · rw [e]; exact hs
    · rw [e]; decide +kernel
  · exact F32.lt_of_lt_of_le (show (0 : F32) < 1e-6 by decide +kernel) (le_max_right (by decide +kernel))

theorem score_ok {cfg : Option BandCfg} (hc : BonusOk cfg) {vs : List Variant} (hv : ∀ v ∈ vs, TameV v) (hl : vs.length ≤ 5)
    (res b : F32) : (scoreOne cfg vs res b).score ≠ nan ∧ InUnit (scoreOne cfg vs res b).fftNorm ∧
      InUnit (scoreOne cfg vs res b).acNorm := by
  have hsub : ∀ v ∈ scoring cfg vs, TameV v := by
    intro v h
    unfold scoring at h
    split_ifs at h
    · exact hv v (List.mem_filter.1 h).1
    · exact hv v h
  have hlen : (scoring cfg vs).length ≤ 2 ^ 20 := by
    unfold scoring
    split_ifs
    · have := List.length_filter_le (fun v : Variant => v.full) vs; omega
    · omega
  obtain ⟨w1, w2⟩ := weightSum_ok hsub hlen
  have hdiv : ∀ sup : Variant → F32, (∀ v ∈ scoring cfg vs, InUnit (sup v)) →
      InUnit (F32.clamp (accumulate (scoring cfg vs) sup / weightSum (scoring cfg vs)) 0 1) := by
    intro sup hs
    apply clamp01
    obtain ⟨x, hx, e, -⟩ := accumulate_bd hsub hs hlen
    obtain ⟨w, hw, e2⟩ := isFinite_iff.1 w1
    rw [e2, zero_def, fin_lt_fin] at w2
    rw [e, e2, div_fin w2.ne']
    exact rnd_ne_nan _
  have h1 : InUnit (scoreOne cfg vs res b).fftNorm := by
    refine hdiv _ (fun v hv' => ?_)
    unfold supFft
    rw [(hsub v hv').mf]
    exact sup_unit (hsub v hv').fft _ _
  have h2 : InUnit (scoreOne cfg vs res b).acNorm := by
    refine hdiv _ (fun v hv' => ?_)
    unfold supAc
    rw [(hsub v hv').ma]
    exact sup_unit (hsub v hv').ac _ _
  exact ⟨bd_ne_nan ((score_not_inf hc hl res b).2 h1 h2), h1, h2⟩

/-! ### The estimator -/

theorem mul_one_self {x : F32} (h : x.isFinite = true) : x * 1 = x := by
  obtain ⟨v, hv, rfl⟩ := isFinite_iff.1 h
  rw [one_def, mul_fin, _root_.mul_one, rnd_val hv]

theorem impl_ok {M : Libm} {fft} {p : Params} {spec : List (List F32)} {cfg : Option BandCfg} (hM : LnSane M)
    (hf : FftTame M fft) (hp : SaneParams p) (hs : PlainSpec spec) (hc : ∀ c, cfg = some c → TameCfg p.sr c) :
    ∃ N e all, (∀ fuel, N ≤ fuel → impl M fft fuel spec p cfg = .ok (e, all)) ∧ ∀ c ∈ all, c.score ≠ nan := by
  obtain ⟨nov, en, nn, nl, nu⟩ := full_ok hM hs hp.sr0 hc
  have hw : (cfg.map BandCfg.wFull).getD 1 ≤ rnd (pow2 80) := by
    rcases cfg with _ | c
    · decide +kernel
    · exact (hc c rfl).full
  have hbon : BonusOk cfg := fun c e => (hc c e).bonus
  obtain ⟨N1, full, e1, t1, ne1, r1⟩ := variant_ok hp hf nn nu nl true hw
  obtain ⟨N2, bands, e2, t2⟩ := bandVariants_ok (fft := fft) hM hp hf hs hc
  obtain ⟨N3, mels, e3, t3⟩ := melVariants_ok (fft := fft) hM hp hf hs hc
  have hbins := hs.bins2
  have himpl : ∀ fuel, N1 + N2 + N3 ≤ fuel → impl M fft fuel spec p cfg = decideBpm p cfg full (bands ++ mels) := by
    intro fuel hfu
    unfold impl
    rw [if_neg (by omega), en, R.ok_bind, if_neg nn, e1 fuel (by omega), R.ok_bind, e2 fuel (by omega), R.ok_bind,
      e3 fuel (by omega), R.ok_bind]
  have hlen : (full :: (bands ++ mels)).length ≤ 5 := by
    have := variants_len (e2 (N2 + N3) (by omega)) (e3 (N2 + N3) (by omega))
    rw [List.length_cons]; omega
  have ht : ∀ v ∈ full :: (bands ++ mels), TameV v := by
    intro v hv
    rcases List.mem_cons.1 hv with rfl | hv
    · exact t1
    · rcases List.mem_append.1 hv with hv | hv
      · exact t2 v hv
      · exact t3 v hv
  have hcand : uniq (folded p.minB p.maxB (seeds (full :: (bands ++ mels)) (primary full.fft) (primary full.ac))) ≠ [] := by
    obtain ⟨a, as, ha⟩ := List.exists_cons_of_ne_nil ne1
    have hr := r1 a (by rw [ha]; simp)
    have hfin : a.1.isFinite = true := le_finite (F32.le_trans (F32.le_trans (by decide +kernel) hp.min) hr.1) hr.2 hp.fin
    have hmem : a.1 ∈ folded p.minB p.maxB (seeds (full :: (bands ++ mels)) (primary full.fft) (primary full.ac)) := by
      refine folded_mem.2 ⟨⟨a.1, ?_, 1, by simp [factors], (mul_one_self hfin).symm⟩, hfin, hr.1, hr.2⟩
      unfold seeds
      refine List.mem_append_left _ (List.mem_append_left _ (List.mem_flatMap.2 ⟨full, by simp, List.mem_append_right _ ?_⟩))
      rw [ha]; simp
    obtain ⟨u, hu, -⟩ := (uniq_spec (fun x hx => (folded_mem.1 hx).2.1)).2.2 a.1 hmem
    exact List.ne_nil_of_mem hu
  have hdec : ∃ e all, decideBpm p cfg full (bands ++ mels) = .ok (e, all) := by
    unfold decideBpm
    dsimp only
    rw [if_neg]
    · unfold select
      dsimp only
      rcases hL : sortDesc Scored.score (List.map (scoreOne cfg (full :: (bands ++ mels)) p.res)
        (uniq (folded p.minB p.maxB (seeds (full :: (bands ++ mels)) (primary full.fft) (primary full.ac))))) with _ | ⟨top, rest⟩
      · exfalso
        have := congrArg List.length hL
        rw [length_sortDesc, List.length_map, List.length_nil] at this
        exact hcand (List.length_eq_zero_iff.1 this)
      · exact ⟨_, _, rfl⟩
    · simp [ne1]
  obtain ⟨e, all, hd⟩ := hdec
  refine ⟨N1 + N2 + N3, e, all, fun fuel hfu => (himpl fuel hfu).trans hd, fun c hcm => ?_⟩
  obtain ⟨pf, pa, -, -, hsel⟩ := decide_inv hd
  obtain ⟨-, -, -, -, h4, -⟩ := select_spec (cands_sound _ _ _ _) hsel
  have : c.score ∈ all.map CandDbg.score := List.mem_map_of_mem hcm
  rw [h4] at this
  obtain ⟨d, hd', e'⟩ := List.mem_map.1 this
  rw [mem_sortDesc] at hd'
  obtain ⟨b, -, rfl⟩ := List.mem_map.1 hd'
  rw [← e']
  exact (score_ok hbon ht hlen p.res b).1

/-- **C21 (success)**: on ordinary inputs the estimator always returns an estimate: it neither hangs, panics nor fails, and
the confidence is in `[0,1]`. -/
theorem C21_succeeds (M : Libm) (fft : List F32 → ℕ → F32 × F32) (spec : List (List F32)) (p : Params)
    (cfg : Option BandCfg) (hM : LnSane M) (hf : FftTame M fft) (hp : SaneParams p) (hs : PlainSpec spec)
    (hc : ∀ c, cfg = some c → TameCfg p.sr c) :
    ∃ N e, (∀ fuel, N ≤ fuel → estimate M fft fuel spec p cfg = .ok e) ∧ InBpm p e.bpm ∧ InUnit e.conf := by
  obtain ⟨N, e, all, h, -⟩ := impl_ok hM hf hp hs hc
  have he : ∀ fuel, N ≤ fuel → estimate M fft fuel spec p cfg = .ok e := by
    intro fuel hfu
    unfold estimate
    rw [h fuel hfu]; rfl
  exact ⟨N, e, he, ((C21_range M fft N spec p cfg 0).1 e (he N (Nat.le_refl _))).1,
    C21_confidence_partial M fft N spec p cfg (fun c e => (hc c e).bonus) e (he N (Nat.le_refl _))⟩

/-- **C22 (ranking)**: on ordinary inputs the candidates are sorted by non-increasing score and no score is NaN. -/
theorem C22_ranked (M : Libm) (fft : List F32 → ℕ → F32 × F32) (spec : List (List F32)) (p : Params)
    (cfg : Option BandCfg) (hM : LnSane M) (hf : FftTame M fft) (hp : SaneParams p) (hs : PlainSpec spec)
    (hc : ∀ c, cfg = some c → TameCfg p.sr c) (topN : ℕ) :
    ∃ N e cs, (∀ fuel, N ≤ fuel → estimateCands M fft fuel spec p topN cfg = .ok (e, cs)) ∧
      (0 < topN → cs ≠ []) ∧ (∀ c ∈ cs, c.score ≠ nan) ∧ cs.Pairwise (fun a b => b.score ≤ a.score) := by
  obtain ⟨N, e, all, h, hn⟩ := impl_ok hM hf hp hs hc
  have he : ∀ fuel, N ≤ fuel → ∀ n, estimateCands M fft fuel spec p n cfg = .ok (e, all.take n) := by
    intro fuel hfu n
    unfold estimateCands
    rw [h fuel hfu, R.ok_bind]
    dsimp only
    split_ifs with h0
    · rw [h0]; simp
    · rfl
  refine ⟨N, e, all.take topN, fun fuel hfu => he fuel hfu topN, fun ht => ?_, fun c hc => hn c (List.mem_of_mem_take hc),
    C22_ranked_partial M fft N spec p cfg topN e all (he N (Nat.le_refl _)) hn⟩
  obtain ⟨vs, ss, -, l, -, -, -, -, -, -, -, -, h6⟩ := impl_spec (h N (Nat.le_refl _))
  intro hnil
  rcases List.take_eq_nil_iff.1 hnil with h0 | h0
  · omega
  · rw [h0] at h6; simp at h6

/-! ### Non-vacuity -/

/-- a stand-in for the FFT: the samples themselves, limited to one -/
def clipFft (x : List F32) (k : ℕ) : F32 × F32 := (F32.clamp (F32.max (x.getD k 0) 0) 0 1, 0)

theorem demo_tame (M : Libm) : FftTame M clipFft := by
  intro nov _ _ k
  unfold clipFft power
  dsimp only
  have h : InUnit (F32.clamp (F32.max ((fftInput M nov).getD k 0) 0) 0 1) := clamp01 (by
    have : 0 ≤ F32.max ((fftInput M nov).getD k 0) 0 := le_max_right zero_ne_nan
    exact ne_nan_right this)
  generalize F32.clamp (F32.max ((fftInput M nov).getD k 0) 0) 0 1 = x at h
  have h1 := bd_mul (bd_unit h) (bd_unit h) (C := 1) (by norm_num) grid_one
  have h2 : Bd ((0 : F32) * 0) 1 := ⟨0, grid_zero, by decide +kernel, le_refl _, by norm_num⟩
  obtain ⟨v, hv, e, -⟩ := bd_add h1 h2 (C := 2) (by norm_num) g_two
  rw [e]; rfl

def demoBands : BandCfg := ⟨true, 200, 2000, 8000, 1, 0.5, 0.5, 0.5, false, 0.25, 0.1, true, 8, 30, 8000, 4, 0.5, 0.5, 0.3, 0.2, 16, 5, 4⟩

example : FftTame rampLibm clipFft ∧ LnSane rampLibm ∧ SaneParams ⟨44100, 512, 40, 240, 0.5⟩ ∧
    PlainSpec [[1, 2, 3], [0, 4, 1], [2, 2, 2], [1, 0, 5]] ∧ TameCfg 44100 demoBands := by
  refine ⟨demo_tame _, ramp_sane, ?_, ?_, ?_⟩
  · constructor <;> decide +kernel
  · refine ⟨by unfold Valid; decide, by decide, by decide, by decide, by decide, ?_⟩
    unfold Plain; decide +kernel
  · constructor <;> first | decide +kernel | (unfold Weight; decide +kernel)

/-- two identical hits in all bands -/
def beatSpec : List (List F32) := [List.replicate 9 0, List.replicate 9 1, List.replicate 9 0, List.replicate 9 1]

/-- three bands that all support the beat, with the given consensus bonus -/
def threeBands (bonus : F32) : BandCfg :=
  { demoBands with lowMax := 0.75, midMax := 1.25, highMax := 0, bonus := bonus, mel := false, localWin := 0, smoothWin := 0 }

/-- **C21 is violated by large consensus bonuses**: the score overflows and the confidence is NaN. -/
theorem C21_violated : PlainSpec beatSpec ∧ SaneParams ⟨4, 1, 120, 130, 30⟩ ∧
    ∃ e, estimate rampLibm clipFft 20 beatSpec ⟨4, 1, 120, 130, 30⟩ (some (threeBands 3e38)) = .ok e ∧ e.conf = nan := by
  refine ⟨⟨by unfold Valid; decide, by decide, by decide, by decide, by decide, by unfold Plain; decide +kernel⟩,
    by constructor <;> decide +kernel, ?_⟩
  have h : (match estimate rampLibm clipFft 20 beatSpec ⟨4, 1, 120, 130, 30⟩ (some (threeBands 3e38)) with
    | .ok e => e.conf
    | _ => 0) = nan := by decide +kernel
  rcases e : estimate rampLibm clipFft 20 beatSpec ⟨4, 1, 120, 130, 30⟩ (some (threeBands 3e38)) with err | v
  · rw [e] at h; exact absurd (show (0 : F32) = nan from h) (by decide +kernel)
  · rw [e] at h; exact ⟨v, rfl, h⟩

/-- two band weights whose sum overflows -/
def heavyBands : BandCfg := { threeBands 1 with seedOnly := false, wFull := 3e38, wLow := 3e38 }

/-- **C22's ranking is violated by band weights whose sum overflows** (both weights are finite numbers): the tempos
that the bands support score NaN, the one that nothing supports scores 0, is listed first and is the one
reported. -/
theorem C22_violated : PlainSpec beatSpec ∧ SaneParams ⟨4, 1, 60, 130, 30⟩ ∧
    ∃ e cs, estimateCands rampLibm clipFft 40 beatSpec ⟨4, 1, 60, 130, 30⟩ 5 (some heavyBands) = .ok (e, cs) ∧
      ¬ cs.Pairwise (fun a b => b.score ≤ a.score) ∧ e.bpm = 60 ∧
      cs.map CandDbg.bpm = [60, 80, 90, 120] ∧ cs.map CandDbg.score = [0, nan, nan, nan] := by
  refine ⟨⟨by unfold Valid; decide, by decide, by decide, by decide, by decide, by unfold Plain; decide +kernel⟩,
    by constructor <;> decide +kernel, ?_⟩
  have h : (match estimateCands rampLibm clipFft 40 beatSpec ⟨4, 1, 60, 130, 30⟩ 5 (some heavyBands) with
    | .ok (e, cs) => (e.bpm, cs.map CandDbg.bpm, cs.map CandDbg.score)
    | _ => (0, [], [])) = (60, [60, 80, 90, 120], [0, nan, nan, nan]) := by decide +kernel
  rcases e : estimateCands rampLibm clipFft 40 beatSpec ⟨4, 1, 60, 130, 30⟩ 5 (some heavyBands) with err | ⟨v, cs⟩
  · rw [e] at h
    exact absurd (show (0 : F32) = 60 from congrArg Prod.fst h) (by decide +kernel)
  · rw [e] at h
    have h1 : v.bpm = 60 := congrArg Prod.fst h
    have h2 : cs.map CandDbg.bpm = [60, 80, 90, 120] := congrArg (fun t => t.2.1) h
    have h3 : cs.map CandDbg.score = [0, nan, nan, nan] := congrArg (fun t => t.2.2) h
    refine ⟨v, cs, rfl, fun hp => ?_, h1, h2, h3⟩
    have : (cs.map CandDbg.score).Pairwise (fun a b => b ≤ a) := List.pairwise_map.2 hp
    rw [h3] at this
    exact absurd (List.rel_of_pairwise_cons this (List.mem_cons_self ..)) (by decide +kernel)

/-- with a moderate bonus the same input gives the top candidate with a positive confidence (C75 applies) -/
example : (match estimateCands rampLibm clipFft 20 beatSpec ⟨4, 1, 120, 130, 30⟩ 5 (some (threeBands 1)) with
    | .ok (e, cs) => decide (0 < e.conf) && decide (e.bpm = 120) && decide (cs.map CandDbg.selected = [true])
    | _ => false) = true := by decide +kernel

/-- octave folding: 200 BPM wins the ranking, 100 BPM is reported, with confidence 0 -/
example : (match select 40 240 0 0 [⟨200, 0.9, 0.5, 0.5⟩, ⟨100, 0.5, 0.5, 0.5⟩, ⟨150, 0.25, 0.5, 0.5⟩] with
    | .ok (e, _) => decide (e.bpm = 100) && decide (e.conf = 0)
    | _ => false) = true := by decide +kernel

/-! ### C76: candidates and peaks -/

/-- the metrical ratios considered -/
def Ratio (f : F32) : Prop := f = 1 ∨ f = 1 / 2 ∨ f = 2 ∨ f = 1 / 3 ∨ f = 3 ∨ f = 2 / 3 ∨ f = 3 / 2

theorem factors_iff (f : F32) : f ∈ factors ↔ Ratio f := by
  have h : (0.5 : F32) = 1 / 2 := by decide +kernel
  unfold factors Ratio
  rw [h]
  simp

/-- **C76**: without band fusion, the candidates are exactly the metrical relatives of the strongest peaks of the two
tempograms of the combined novelty curve, up to the 0.75 BPM tolerance: every candidate is a ratio times one of the eight
strongest entries of one tempogram, and every such product inside the range is within 0.75 BPM of a candidate. -/
theorem C76_relatives (M : Libm) (fft : List F32 → ℕ → F32 × F32) (fuel : ℕ) (spec : List (List F32)) (p : Params)
    (s en h : List F32) (F A : List (F32 × F32)) (e : Period.Est) (all : List CandDbg)
    (hs : superflux M spec 4 = .ok s) (he : energyFlux spec = .ok en) (hh : hfc spec p.sr = .ok h)
    (hF : fftTempogram M fft (combined s en h 0.5 0.3 0.2 16 5) p.sr p.hop p.minB p.maxB = .ok F)
    (hA : acTempogram fuel (combined s en h 0.5 0.3 0.2 16 5) p.sr p.hop p.minB p.maxB p.res = .ok A)
    (hr : ∀ n, estimateCands M fft fuel spec p n none = .ok (e, all.take n)) :
    (∀ c ∈ all, ∃ b ∈ F.take 8 ++ A.take 8, ∃ f, Ratio f ∧ c.bpm = b.1 * f) ∧
    (∀ b ∈ F.take 8 ++ A.take 8, ∀ f, Ratio f → (b.1 * f).isFinite = true → InBpm p (b.1 * f) →
      ∃ c ∈ all, ¬ Apart c.bpm (b.1 * f)) := by
  have hi := full_ranking hr
  unfold impl at hi
  split_ifs at hi with h0
  rw [show fullNovelty M spec p.sr none = .ok (combined s en h 0.5 0.3 0.2 16 5) by
    unfold fullNovelty
    rw [show ((none : Option BandCfg).map BandCfg.filter).getD 4 = 4 from rfl, hs, R.ok_bind, he, R.ok_bind, hh, R.ok_bind]
    rfl, R.ok_bind] at hi
  split_ifs at hi with h1
  rw [show variantOf M fft fuel p true (((none : Option BandCfg).map BandCfg.wFull).getD 1)
      (combined s en h 0.5 0.3 0.2 16 5) = .ok ⟨true, 1, F, A, peakOf F, peakOf A⟩ by
    unfold variantOf
    rw [hF, R.ok_bind, hA, R.ok_bind]; rfl, R.ok_bind] at hi
  change decideBpm p none ⟨true, 1, F, A, peakOf F, peakOf A⟩ [] = _ at hi
  obtain ⟨pf, pa, hpf, hpa, hsel⟩ := decide_inv hi
  obtain ⟨-, -, -, h3, -⟩ := select_spec (cands_sound _ _ _ _) hsel
  have hseeds : ∀ x, x ∈ seeds [⟨true, 1, F, A, peakOf F, peakOf A⟩] pf pa ↔ ∃ b ∈ F.take 8 ++ A.take 8, b.1 = x := by
    intro x
    have hprim : ∀ t : List (F32 × F32), 0 < primary t → ∃ b ∈ t.take 8, b.1 = primary t := by
      intro t ht
      rcases t with _ | ⟨b, t⟩
      · exact absurd ht (by unfold primary findBest; decide +kernel)
      · exact ⟨b, by simp, rfl⟩
    unfold seeds
    simp only [List.flatMap_cons, List.flatMap_nil, List.append_nil, List.mem_append, List.mem_map]
    constructor
    · rintro (((⟨b, hb, rfl⟩ | ⟨b, hb, rfl⟩) | hx) | hx)
      · exact ⟨b, Or.inl hb, rfl⟩
      · exact ⟨b, Or.inr hb, rfl⟩
      · split_ifs at hx with hc
        · rw [List.mem_singleton] at hx
          obtain ⟨b, hb, e⟩ := hprim F (by rw [hpf] at hc; exact hc)
          exact ⟨b, Or.inl hb, by rw [hx, e, hpf]⟩
        · cases hx
      · split_ifs at hx with hc
        · rw [List.mem_singleton] at hx
          obtain ⟨b, hb, e⟩ := hprim A (by rw [hpa] at hc; exact hc)
          exact ⟨b, Or.inr hb, by rw [hx, e, hpa]⟩
        · cases hx
    · rintro ⟨b, hb | hb, rfl⟩
      · exact Or.inl (Or.inl (Or.inl ⟨b, hb, rfl⟩))
      · exact Or.inl (Or.inl (Or.inr ⟨b, hb, rfl⟩))
  obtain ⟨u1, -, u3⟩ := uniq_spec (l := folded p.minB p.maxB (seeds [⟨true, 1, F, A, peakOf F, peakOf A⟩] pf pa))
    (fun x hx => (folded_mem.1 hx).2.1)
  have hbpm : ∀ x, x ∈ all.map CandDbg.bpm ↔ x ∈ uniq (folded p.minB p.maxB (seeds [⟨true, 1, F, A, peakOf F, peakOf A⟩] pf pa)) := by
    intro x
    rw [h3]
    simp only [List.mem_map, mem_sortDesc]
    constructor
    · rintro ⟨c, ⟨b, hb, rfl⟩, rfl⟩; exact hb
    · intro hx; exact ⟨_, ⟨x, hx, rfl⟩, rfl⟩
  constructor
  · intro c hc
    obtain ⟨⟨x, hx, f, hf, ex⟩, -⟩ := folded_mem.1 (u1 _ ((hbpm c.bpm).1 (List.mem_map_of_mem hc)))
    obtain ⟨b, hb, rfl⟩ := (hseeds x).1 hx
    exact ⟨b, hb, f, (factors_iff f).1 hf, ex⟩
  · intro b hb f hf hfin hin
    obtain ⟨u, hu, hna⟩ := u3 (b.1 * f) (folded_mem.2 ⟨⟨b.1, (hseeds b.1).2 ⟨b, hb, rfl⟩, f, (factors_iff f).2 hf, rfl⟩, hfin, hin.1, hin.2⟩)
    obtain ⟨c, hc, rfl⟩ := List.mem_map.1 ((hbpm u).2 hu)
    exact ⟨c, hc, hna⟩

theorem ok_of_isOk {α} {r : R α} (h : r.isOk = true) : ∃ x, r = .ok x := by
  rcases r with e | x
  · cases h
  · exact ⟨x, rfl⟩

/-- the demonstration input meets the hypotheses -/
example : superflux rampLibm beatSpec 4 = .ok [1, 0, 1] ∧ energyFlux beatSpec = .ok [1, 0, 1] ∧ hfc beatSpec 4 = .ok [1, 0, 1] ∧
    (∃ F, fftTempogram rampLibm clipFft (combined [1, 0, 1] [1, 0, 1] [1, 0, 1] 0.5 0.3 0.2 16 5) 4 1 60 240 = .ok F) ∧
    (∃ A, acTempogram 20 (combined [1, 0, 1] [1, 0, 1] [1, 0, 1] 0.5 0.3 0.2 16 5) 4 1 60 240 60 = .ok A) ∧
    ∃ (e : Period.Est) (all : List CandDbg),
      ∀ n, estimateCands rampLibm clipFft 20 beatSpec ⟨4, 1, 60, 240, 60⟩ n none = .ok (e, all.take n) := by
  refine ⟨by decide +kernel, by decide +kernel, by decide +kernel, ok_of_isOk (by decide +kernel), ok_of_isOk (by decide +kernel), ?_⟩
  obtain ⟨⟨e, cs⟩, h⟩ := ok_of_isOk (r := estimateCands rampLibm clipFft 20 beatSpec ⟨4, 1, 60, 240, 60⟩ 0 none) (by decide +kernel)
  obtain ⟨-, -, -, -, all, h2, -⟩ := C22_candidates _ _ _ _ _ _ _ _ _ h
  exact ⟨e, all, h2⟩

end Verif.Props
