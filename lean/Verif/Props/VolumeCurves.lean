/-
Property theorems C129: turning the volume up by a power of two changes no value of the novelty curves
(src/features/period/novelty.rs), as long as the quiet version gets scaled to its peak at all.
-/
import Verif.Props.Volume
import Verif.Model.Novelty

namespace Verif.Props
open Verif Verif.Novelty Verif.F32

/-- a spectrogram with non-negative magnitudes of ordinary size and at most 65536 bins -/
def OrdinarySpec (spec : List (List F32)) : Prop :=
  ∀ fr ∈ spec, fr.length ≤ 2 ^ 16 ∧ ∀ v ∈ fr, 0 ≤ v ∧ OrdinaryLevel v

/-- the spectrogram of the recording amplified by `2^k` -/
def louderSpec (k : ℕ) (spec : List (List F32)) : List (List F32) := spec.map (·.map (· * gainOf2 k))

theorem peak_one {c : List F32} (h : 1 ∈ peakNorm c) : EPS < F32.foldMax 0 c := by
  by_contra hE
  unfold peakNorm at h
  dsimp only at h
  rw [if_neg hE] at h
  obtain ⟨-, -, m3, -⟩ := foldMax_spec (l := c) zero_ne_nan
  exact hE (F32.lt_of_lt_of_le (by decide +kernel) (m3 1 h (by decide +kernel)))

theorem gain_quotients {c : ℚ} (hc : 0 < c) {l l' : List F32} (h : List.Forall₂ (GainOf c) l l') {m m' : F32}
    (hm : GainOf c m m') (h0 : 0 < m) : l.map (· / m) = l'.map (· / m') := by
  obtain ⟨q, hq, hq', rfl, rfl⟩ := hm
  have q0 : 0 < q := by rw [zero_def] at h0; exact fin_lt_fin.1 h0
  induction h with
  | nil => rfl
  | cons h1 _ ih =>
    obtain ⟨v, hv, hw, rfl, rfl⟩ := h1
    rw [List.map_cons, List.map_cons, ih, div_fin q0.ne', div_fin (_root_.mul_pos hc q0).ne', mul_div_mul_left _ _ hc.ne']

theorem vol_le {k : ℕ} {lo hi : ℤ} {x y : F32} (h : Vol k lo hi x y) : x ≤ y := by
  obtain ⟨v, hv, hw, rfl, rfl, v0, -⟩ := h
  exact fin_le_fin.2 (le_mul_of_one_le_left v0 (one_le_pow2 k))

theorem vol_peakNorm {k : ℕ} {lo hi : ℤ} {c c' : List F32} (h : List.Forall₂ (Vol k lo hi) c c') (h1 : 1 ∈ peakNorm c) :
    peakNorm c' = peakNorm c := by
  have hE := peak_one h1
  have hm := Vol.foldMax h (vol_zero k lo hi)
  unfold peakNorm
  dsimp only
  rw [if_pos hE, if_pos (F32.lt_of_lt_of_le hE (vol_le hm))]
  exact (gain_quotients (pow2_pos _) (h.imp fun _ _ h => h.gain) hm.gain (F32.lt_trans (by decide +kernel) hE)).symm

theorem louder_checkSpec (k : ℕ) (spec : List (List F32)) : checkSpec (louderSpec k spec) = checkSpec spec := by
  have hh : ((louderSpec k spec).headD []).length = (spec.headD []).length := by
    unfold louderSpec; cases spec <;> simp
  unfold checkSpec ragged
  rw [hh]
  unfold louderSpec
  rw [List.any_map]
  simp only [Function.comp_def, List.length_map]

theorem vol_energy {k : ℕ} (hk : k ≤ 20) {fr : List F32} (hl : fr.length ≤ 2 ^ 16) (h : ∀ v ∈ fr, 0 ≤ v ∧ OrdinaryLevel v) :
    Vol (k + k) (-80) 104 (energy fr) (energy (fr.map (· * gainOf2 k))) :=
  Vol.sum (hi := 80) (vol_squares (fun v hv => (h v hv).2) hk) (by rw [List.length_map]; omega) (by norm_num) (by norm_num)
    (by norm_num) (by norm_num)

theorem vol_hfcFrom {k : ℕ} (hk : k ≤ 20) {s : ℕ} {fr : List F32} (hl : s + fr.length ≤ 2 ^ 16)
    (h : ∀ v ∈ fr, 0 ≤ v ∧ OrdinaryLevel v) :
    Vol (k + k) (-80) 120 (hfcFrom s fr) (hfcFrom s (fr.map (· * gainOf2 k))) := by
  unfold hfcFrom
  rw [List.zipIdx_map, List.map_map]
  refine Vol.sum (hi := 96) ?_ (by rw [List.length_map, List.length_zipIdx]; omega) (by norm_num) (by norm_num) (by norm_num) (by norm_num)
  rw [List.forall₂_map_left_iff, List.forall₂_map_right_iff, List.forall₂_same]
  rintro ⟨v, i⟩ hvi
  obtain ⟨-, hi, hvm⟩ := List.mem_zipIdx hvi
  have hvm : v ∈ fr := by rw [hvm]; exact List.getElem_mem _
  have hV := (ordinary_vol (h v hvm).2 hk).2 (h v hvm).1
  have hq : (i : ℚ) = 0 ∨ pow2 0 ≤ (i : ℚ) := by
    rcases Nat.eq_zero_or_pos i with h | h
    · left; exact_mod_cast h
    · right; rw [show (0 : ℤ) = ((0 : ℕ) : ℤ) from rfl, pow2_nat, pow_zero]; exact_mod_cast h
  have hq' : (i : ℚ) ≤ pow2 16 := by
    rw [show (16 : ℤ) = ((16 : ℕ) : ℤ) from rfl, pow2_nat]; exact_mod_cast (by omega : i ≤ 2 ^ 16)
  have hW := (hV.mul_const (hc := grid_nat (by omega)) (by positivity : (0 : ℚ) ≤ (i : ℚ)) hq hq' (by norm_num) (by norm_num)
    (by norm_num) (by norm_num)).mul hV (by norm_num) (by norm_num) (by norm_num) (by norm_num)
  rw [← ofNat_exact (by omega)] at hW
  exact hW

theorem vol_rise {k : ℕ} {lo hi : ℤ} {e e' : List F32} (h : List.Forall₂ (Vol k lo hi) e e') (h2 : -149 ≤ hi)
    (h3 : hi ≤ 127) : List.Forall₂ (Vol k (-149) hi) (rise e) (rise e') := vol_diffFlux h h2 h3

theorem vol_frames {k K : ℕ} {lo hi : ℤ} {spec : List (List F32)} {g : List F32 → F32}
    (h : ∀ fr ∈ spec, Vol K lo hi (g fr) (g (fr.map (· * gainOf2 k)))) :
    List.Forall₂ (Vol K lo hi) (spec.map g) ((louderSpec k spec).map g) := by
  unfold louderSpec
  rw [List.map_map, List.forall₂_map_left_iff, List.forall₂_map_right_iff, List.forall₂_same]
  exact h

/-- the shared shape of the four detectors -/
theorem vol_curve {k K : ℕ} {lo hi : ℤ} {spec : List (List F32)} {g : List F32 → F32} {c : List F32}
    (h : ∀ fr ∈ spec, Vol K lo hi (g fr) (g (fr.map (· * gainOf2 k)))) (h2 : -149 ≤ hi) (h3 : hi ≤ 127)
    (hc : c = peakNorm (rise (spec.map g))) (h1 : 1 ∈ c) : peakNorm (rise ((louderSpec k spec).map g)) = c := by
  subst hc
  exact vol_peakNorm (vol_rise (vol_frames h) h2 h3) h1

theorem louder_length (k : ℕ) (spec : List (List F32)) : (louderSpec k spec).length = spec.length := List.length_map _

theorem louder_head (k : ℕ) (spec : List (List F32)) : ((louderSpec k spec).headD []).length = (spec.headD []).length := by
  unfold louderSpec; cases spec <;> simp

/-- **C129 (partial), energy-flux novelty.** -/
theorem C129_energy_partial {spec : List (List F32)} {c : List F32} {k : ℕ} (hk : k ≤ 20) (hs : OrdinarySpec spec)
    (h : energyFlux spec = .ok c) (h1 : 1 ∈ c) : energyFlux (louderSpec k spec) = .ok c := by
  unfold energyFlux at h ⊢
  rw [louder_length, louder_checkSpec]
  by_cases hl : spec.length < 2
  · rw [if_pos hl] at h ⊢; exact h
  rw [if_neg hl] at h ⊢
  obtain ⟨u, hu, h⟩ := R.bind_eq_ok.1 h
  rw [hu, R.ok_bind]
  cases h
  rw [vol_curve (k := k) (g := energy) (fun fr hfr => vol_energy hk (hs fr hfr).1 (hs fr hfr).2) (by norm_num) (by norm_num) rfl h1]

theorem band_mem {s e : ℕ} {fr : List F32} {v : F32} (h : v ∈ band s e fr) : v ∈ fr :=
  List.mem_of_mem_take (List.mem_of_mem_drop h)

/-- **C129 (partial), energy-flux novelty of a band.** -/
theorem C129_energyBand_partial {spec : List (List F32)} {s e : ℕ} {c : List F32} {k : ℕ} (hk : k ≤ 20) (hs : OrdinarySpec spec)
    (h : energyFluxBand spec s e = .ok c) (h1 : 1 ∈ c) : energyFluxBand (louderSpec k spec) s e = .ok c := by
  unfold energyFluxBand at h ⊢
  rw [louder_length, louder_checkSpec, louder_head]
  by_cases hl : spec.length < 2
  · rw [if_pos hl] at h ⊢; exact h
  rw [if_neg hl] at h ⊢
  obtain ⟨u, hu, h⟩ := R.bind_eq_ok.1 h
  rw [hu, R.ok_bind]
  dsimp only at h ⊢
  split_ifs at h ⊢
  · exact h
  cases h
  rw [vol_curve (k := k) (K := k + k) (lo := -80) (hi := 104) (fun fr hfr => ?_) (by norm_num) (by norm_num) rfl h1]
  rw [band_map]
  exact vol_energy hk (by
    have := (hs fr hfr).1
    unfold band; rw [List.length_drop, List.length_take]; omega) (fun v hv => (hs fr hfr).2 v (band_mem hv))

/-- **C129 (partial), high-frequency-content novelty.** -/
theorem C129_hfc_partial {spec : List (List F32)} {sr : ℕ} {c : List F32} {k : ℕ} (hk : k ≤ 20) (hs : OrdinarySpec spec)
    (h : hfc spec sr = .ok c) (h1 : 1 ∈ c) : hfc (louderSpec k spec) sr = .ok c := by
  unfold hfc at h ⊢
  rw [louder_length, louder_checkSpec]
  by_cases h0 : spec = []
  · rw [if_pos h0] at h; cases h; cases h1
  rw [if_neg h0] at h
  rw [if_neg (by unfold louderSpec; rw [List.map_eq_nil_iff]; exact h0)]
  by_cases hr : sr = 0
  · rw [if_pos hr] at h; cases h
  rw [if_neg hr] at h ⊢
  by_cases hl : spec.length < 2
  · rw [if_pos hl] at h ⊢; exact h
  rw [if_neg hl] at h ⊢
  obtain ⟨u, hu, h⟩ := R.bind_eq_ok.1 h
  rw [hu, R.ok_bind]
  cases h
  rw [vol_curve (k := k) (g := hfcFrom 0) (fun fr hfr => vol_hfcFrom hk (by have := (hs fr hfr).1; omega) (hs fr hfr).2) (by norm_num) (by norm_num) rfl h1]

/-- **C129 (partial), high-frequency-content novelty of a band.** -/
theorem C129_hfcBand_partial {spec : List (List F32)} {s e : ℕ} {c : List F32} {k : ℕ} (hk : k ≤ 20) (hs : OrdinarySpec spec)
    (h : hfcBand spec s e = .ok c) (h1 : 1 ∈ c) : hfcBand (louderSpec k spec) s e = .ok c := by
  unfold hfcBand at h ⊢
  rw [louder_length, louder_checkSpec, louder_head]
  by_cases hl : spec.length < 2
  · rw [if_pos hl] at h ⊢; exact h
  rw [if_neg hl] at h ⊢
  obtain ⟨u, hu, h⟩ := R.bind_eq_ok.1 h
  rw [hu, R.ok_bind]
  dsimp only at h ⊢
  split_ifs at h ⊢ with hse
  · exact h
  cases h
  rw [vol_curve (k := k) (K := k + k) (lo := -80) (hi := 120) (fun fr hfr => ?_) (by norm_num) (by norm_num) rfl h1]
  rw [band_map]
  have hne : spec ≠ [] := by rintro rfl; simp at hl
  obtain ⟨f0, rest, rfl⟩ := List.exists_cons_of_ne_nil hne
  refine vol_hfcFrom hk ?_ (fun v hv => (hs fr hfr).2 v (band_mem hv))
  have a1 := (hs fr hfr).1
  have a2 := (hs f0 (by simp)).1
  have a3 : Nat.min s f0.length ≤ f0.length := Nat.min_le_right _ _
  have a4 : Nat.min e f0.length ≤ f0.length := Nat.min_le_right _ _
  simp only [List.headD_cons] at *
  unfold band
  rw [List.length_drop, List.length_take]
  omega

/-- **C129 (partial), spectral-flux novelty.** No frame may cross the audibility limit of 1e-10: here each frame is
digitally silent or audible already before the amplification. -/
theorem C129_spectral_partial {spec : List (List F32)} {k : ℕ} (hk : k ≤ 20) (hs : OrdinarySpec spec)
    (ha : ∀ fr ∈ spec, (∀ v ∈ fr, v = 0) ∨ ∃ v ∈ fr, (1e-10 : F32) < v) :
    spectralFlux (louderSpec k spec) = spectralFlux spec := by
  have hn : (louderSpec k spec).map normFrame = spec.map normFrame := by
    unfold louderSpec
    rw [List.map_map]
    refine List.map_congr_left fun fr hfr => ?_
    have hV : List.Forall₂ (Vol k (-40) 40) fr (fr.map (· * gainOf2 k)) := by
      rw [List.forall₂_map_right_iff, List.forall₂_same]
      exact fun v hv => (ordinary_vol ((hs fr hfr).2 v hv).2 hk).2 ((hs fr hfr).2 v hv).1
    have hg := hV.imp fun _ _ h => h.gain
    refine (norm_shape ⟨⟨pow2 k, pow2_pos _, hg⟩, ?_⟩).symm
    rcases ha fr hfr with hz | hv
    · have h1 : ∀ v ∈ fr.map (· * gainOf2 k), v = 0 := by
        intro v hv
        obtain ⟨w, hw, rfl⟩ := List.mem_map.1 hv
        obtain ⟨q, hq, hq', e, e', -⟩ := (ordinary_vol ((hs fr hfr).2 w hw).2 hk).2 ((hs fr hfr).2 w hw).1
        have : q = 0 := by
          have hz' := hz w hw
          rw [e, zero_def] at hz'
          injection hz'
        rw [e', zero_def]
        congr 1
        rw [this, mul_zero]
      have no : ∀ l : List F32, (∀ v ∈ l, v = 0) → ¬ AudibleFrame l := by
        rintro l hl ⟨v, hv, hlt⟩
        rw [hl v hv] at hlt
        exact absurd hlt (by decide +kernel)
      exact ⟨fun h => absurd h (no _ hz), fun h => absurd h (no _ h1)⟩
    · refine ⟨fun _ => ?_, fun _ => hv⟩
      obtain ⟨v, hv, hlt⟩ := hv
      exact ⟨_, List.mem_map.2 ⟨v, hv, rfl⟩,
        F32.lt_of_lt_of_le hlt (vol_le ((ordinary_vol ((hs fr hfr).2 v hv).2 hk).2 ((hs fr hfr).2 v hv).1))⟩
  unfold spectralFlux
  rw [louder_length, louder_checkSpec, hn]

instance (spec : List (List F32)) : Decidable (OrdinarySpec spec) := by unfold OrdinarySpec; infer_instance

/-- two attacks -/
def knocks : List (List F32) := [[0, 1, 1], [0, 3, 1], [0, 1, 0], [1, 5, 2]]

/-- the hypotheses hold, and the curves are not trivial -/
example : OrdinarySpec knocks ∧ (∀ fr ∈ knocks, (∀ v ∈ fr, v = 0) ∨ ∃ v ∈ fr, (1e-10 : F32) < v) ∧
    energyFlux knocks = .ok [8 / 29, 0, 1] ∧ energyFlux (louderSpec 3 knocks) = .ok [8 / 29, 0, 1] ∧
    energyFluxBand (louderSpec 3 knocks) 1 3 = .ok [8 / 28, 0, 1] ∧
    hfc (louderSpec 3 knocks) 44100 = .ok [8 / 32, 0, 1] ∧ hfcBand (louderSpec 3 knocks) 1 3 = .ok [8 / 32, 0, 1] ∧
    spectralFlux (louderSpec 3 knocks) = spectralFlux knocks := by
  have h0 : OrdinarySpec knocks := by decide +kernel
  have h1 : ∀ fr ∈ knocks, (∀ v ∈ fr, v = 0) ∨ ∃ v ∈ fr, (1e-10 : F32) < v := by decide +kernel
  have e1 : energyFlux knocks = .ok [8 / 29, 0, 1] := by decide +kernel
  refine ⟨h0, h1, e1, C129_energy_partial (by norm_num) h0 e1 (by simp),
    C129_energyBand_partial (by norm_num) h0 (by decide +kernel) (by simp),
    C129_hfc_partial (by norm_num) h0 (by decide +kernel) (by simp),
    C129_hfcBand_partial (by norm_num) h0 (by decide +kernel) (by simp), C129_spectral_partial (by norm_num) h0 h1⟩

/-- the same at a very low level -/
def faintKnocks : List (List F32) := knocks.map (·.map (· * rnd (pow2 (-20))))

/-- **C129 is violated** for recordings so quiet that no energy rise exceeds 1e-10: their curve is not scaled to its
peak, that of the louder copy is. -/
theorem C129_violated : ¬ ∀ (spec : List (List F32)) (k : ℕ), k ≤ 20 → OrdinarySpec spec →
    energyFlux (louderSpec k spec) = energyFlux spec := by
  intro h
  have := h faintKnocks 20 (by norm_num) (by decide +kernel)
  rw [show energyFlux (louderSpec 20 faintKnocks) = .ok [8 / 29, 0, 1] by decide +kernel] at this
  exact absurd this.symm (by decide +kernel)

/-- a mathematical library with the correctly rounded logarithms of 1, 2, 3, 4 and 7 -/
def lnLib : Libm := { Libm.demo with
  ln := fun x => if x = 2 then 0.6931472 else if x = 3 then 1.0986123 else if x = 4 then 1.3862944 else
    if x = 7 then 1.9459101 else 0 }

/-- **C129 is violated** by the log-compressed curves: with the true logarithms, doubling the volume of `0, 1, 3`
makes the second of two equal attacks weaker. -/
theorem C129_violated_superflux : superflux lnLib [[0], [1], [3]] 1 = .ok [1, 1] ∧
    (∃ x : F32, superflux lnLib (louderSpec 1 [[0], [1], [3]]) 1 = .ok [1, x] ∧ x < 0.8) := by
  refine ⟨by decide +kernel, (1.9459101 - 1.0986123) / 1.0986123, by decide +kernel, by decide +kernel⟩

end Verif.Props
