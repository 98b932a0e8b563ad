/-
Property theorems C122: silence before the music delays the onsets and changes nothing else
(src/features/onset/{energy_flux,spectral_flux,hfc,hpss}.rs).
-/
import Mathlib.Data.List.Sort
import Verif.Props.ClickOnset
import Verif.Props.FluxLevel
import Verif.Props.Stricter

namespace Verif.Props
open Verif Verif.Onset Verif.F32

/-! ### Peaks of a padded flux -/

theorem getElem?_padded {f : List F32} {k t i : ℕ} :
    (List.replicate k (0 : F32) ++ f ++ List.replicate t 0)[i]? =
      if i < k then some 0 else if i < k + f.length then f[i - k]? else if i < k + f.length + t then some 0 else none := by
  rw [List.append_assoc]
  split_ifs with h1 h2 h3
  · rw [List.getElem?_append_left (by simpa using h1)]; simp [h1]
  · rw [List.getElem?_append_right (by simpa using h1), List.getElem?_append_left (by simp; omega)]; simp
  · rw [List.getElem?_append_right (by simpa using h1), List.getElem?_append_right (by simp; omega), List.getElem?_replicate,
      if_pos (by simp; omega)]
  · rw [List.getElem?_eq_none]; simp; omega

/-- Zeros around a flux move its peaks and add none, whatever the (non-negative) threshold. -/
theorem fluxPeak_padded {f : List F32} {thr : F32} {k t q : ℕ} (hl : 2 ≤ f.length) (hthr : 0 ≤ thr) :
    FluxPeak (List.replicate k (0 : F32) ++ f ++ List.replicate t 0) thr q ↔ ∃ j, q = k + j ∧ FluxPeak f thr j := by
  constructor
  · rintro ⟨-, hq, x, hx, hlt, hleft, hright⟩
    have hne : x ≠ 0 := by
      rintro rfl
      exact F32.lt_irrefl _ (F32.lt_of_le_of_lt hthr hlt)
    rw [getElem?_padded] at hx
    split_ifs at hx with h1 h2 h3
    · exact absurd (Option.some.inj hx).symm hne
    · refine ⟨q - k, by omega, hl, by omega, x, by rw [← hx]; congr 1; omega, hlt, fun y hy hf => ?_, fun y hf => ?_⟩
      · apply hleft y (by omega)
        rw [getElem?_padded, if_neg (by omega), if_pos (by omega), ← hf]; congr 1; omega
      · apply hright y
        have := (List.getElem?_eq_some_iff.1 hf).1
        rw [getElem?_padded, if_neg (by omega), if_pos (by omega), hf]
    · exact absurd (Option.some.inj hx).symm hne
  · rintro ⟨j, rfl, -, hj, x, hx, hlt, hleft, hright⟩
    have hpos := F32.lt_of_le_of_lt hthr hlt
    have hjl := (List.getElem?_eq_some_iff.1 hx).1
    refine ⟨by simp; omega, by omega, x, ?_, hlt, fun y hy hf => ?_, fun y hf => ?_⟩
    · rw [getElem?_padded, if_neg (by omega), if_pos (by omega), ← hx]; congr 1; omega
    · rw [getElem?_padded] at hf
      split_ifs at hf with h1 h2 h3
      · rw [← Option.some.inj hf]; exact hpos
      · exact hleft y (by omega) (by rw [← hf]; congr 1; omega)
      · omega
    · rw [getElem?_padded] at hf
      split_ifs at hf with h1 h2 h3
      · rw [← Option.some.inj hf]; exact F32.le_of_lt hpos
      · exact hright y (by rw [← hf]; congr 1; omega)
      · rw [← Option.some.inj hf]; exact F32.le_of_lt hpos

/-! ### Energy flux -/

/-- The recording with `lead` zeros before it and `tail` zeros after it. -/
def padded (lead tail : ℕ) (x : List F32) : List F32 := List.replicate lead 0 ++ x ++ List.replicate tail 0

/-- The first and the last `frame` samples are zero. -/
def QuietEnds (frame : ℕ) (x : List F32) : Prop :=
  ∀ s v, x[s]? = some v → s < frame ∨ x.length ≤ s + frame → v = 0

theorem energy_inside {x : List F32} {frame lead tail o : ℕ} (h : o + frame ≤ x.length) :
    Energy (padded lead tail x) frame (lead + o) = Energy x frame o := by
  unfold Energy padded
  rw [List.append_assoc, List.drop_append, List.drop_eq_nil_of_le (by simp), List.nil_append,
    List.length_replicate, Nat.add_sub_cancel_left, List.drop_append_of_le_length (by omega),
    List.take_append_of_le_length (by simp; omega)]

theorem energy_before {x : List F32} {frame lead tail o : ℕ} (hf : 1 ≤ frame) (hq : QuietEnds frame x) (h : o ≤ lead) :
    Energy (padded lead tail x) frame o = 0 := by
  apply energy_silent hf
  rintro s v ⟨h1, h2⟩ hs
  unfold padded at hs
  rw [getElem?_padded] at hs
  split_ifs at hs
  · exact (Option.some.inj hs).symm
  · exact hq _ _ hs (.inl (by omega))
  · exact (Option.some.inj hs).symm

theorem energy_after {x : List F32} {frame lead tail o : ℕ} (hf : 1 ≤ frame) (hq : QuietEnds frame x)
    (h : lead + x.length ≤ o + frame) : Energy (padded lead tail x) frame o = 0 := by
  apply energy_silent hf
  rintro s v ⟨h1, h2⟩ hs
  unfold padded at hs
  rw [getElem?_padded] at hs
  split_ifs at hs
  · exact (Option.some.inj hs).symm
  · exact hq _ _ hs (.inr (by omega))
  · exact (Option.some.inj hs).symm

theorem sqrt_nan_or_nonneg (a : F32) : F32.sqrt a = nan ∨ 0 ≤ F32.sqrt a := by
  rcases a with _ | (_ | _) | ⟨v, hv⟩
  · exact .inl rfl
  · exact .inr (by decide +kernel)
  · exact .inl rfl
  · rcases lt_or_ge v 0 with h | h
    · left; unfold F32.sqrt; dsimp only; rw [if_pos h]
    · exact .inr (F32.sqrt_nonneg (by rw [zero_def, fin_le_fin]; exact h))

theorem fall_zero {a : F32} (h : a = nan ∨ 0 ≤ a) : F32.max (0 - a) 0 = 0 := by
  rcases h with rfl | h
  · decide +kernel
  · rcases nonneg_cases h with rfl | ⟨v, hv, rfl, v0⟩
    · decide +kernel
    · have : (0 : F32) - fin v hv ≤ 0 := by
        rw [zero_def, sub_fin]; exact rnd_le_fin (by linarith)
      exact F32.le_antisymm (F32.max_le this (F32.le_refl zero_ne_nan)) (F32.le_max_right zero_ne_nan)

theorem isMax0_unique {f : List F32} {a b : F32} (ha : IsMax0 f a) (hb : IsMax0 f b) : a = b := by
  have : ∀ {a b : F32}, IsMax0 f a → IsMax0 f b → a ≤ b := by
    intro a b ha hb
    rcases ha.2.2 with rfl | h'
    · exact hb.2.1
    · exact hb.1 _ h'
  exact F32.le_antisymm (this ha hb) (this hb ha)

theorem isMax0_padded {f : List F32} {m : F32} {k t : ℕ} (h : IsMax0 f m) :
    IsMax0 (List.replicate k (0 : F32) ++ f ++ List.replicate t 0) m := by
  refine ⟨fun x hx => ?_, h.2.1, h.2.2.imp id fun h => by simp [h]⟩
  rw [List.mem_append, List.mem_append] at hx
  rcases hx with (hx | hx) | hx
  · rw [List.eq_of_mem_replicate hx]; exact h.2.1
  · exact h.1 x hx
  · rw [List.eq_of_mem_replicate hx]; exact h.2.1

/-- The energy flux of the padded recording is the flux of the recording, padded with zeros. -/
theorem rise_padded {x f f' : List F32} {frame hop k tail n : ℕ} (hf : 1 ≤ frame) (hh : 1 ≤ hop) (hq : QuietEnds frame x)
    (hl : frame ≤ x.length) (hn : n = (x.length - frame) / hop)
    (h : IsRise (fun i => Energy x frame (i * hop)) n f)
    (h' : IsRise (fun i => Energy (padded (k * hop) tail x) frame (i * hop))
      (((padded (k * hop) tail x).length - frame) / hop) f') :
    ∃ t, f' = List.replicate k (0 : F32) ++ f ++ List.replicate t 0 := by
  have hlen : (padded (k * hop) tail x).length = k * hop + x.length + tail := by simp [padded]; omega
  rw [hlen] at h'
  have hN : (k * hop + x.length + tail - frame) / hop = k + (x.length + tail - frame) / hop := by
    rw [show k * hop + x.length + tail - frame = (x.length + tail - frame) + hop * k by rw [Nat.mul_comm hop]; omega,
      Nat.add_mul_div_left _ _ (by omega), Nat.add_comm]
  have hnN : n ≤ (x.length + tail - frame) / hop := hn ▸ Nat.div_le_div_right (by omega)
  rw [hN] at h'
  generalize (x.length + tail - frame) / hop = N at h' hnN
  have hin : ∀ i, i ≤ n → i * hop + frame ≤ x.length := fun i hi => by
    have := (Nat.mul_le_mul_right hop (hn ▸ hi)).trans (Nat.div_mul_le_self (x.length - frame) hop)
    omega
  have hout : ∀ i, n < i → x.length ≤ i * hop + frame := fun i hi => by
    have h1 : x.length - frame < hop * (n + 1) := by
      rw [hn]; exact Nat.lt_mul_div_succ _ (by omega)
    have h2 : hop * (n + 1) ≤ i * hop := by rw [Nat.mul_comm]; exact Nat.mul_le_mul_right _ hi
    omega
  have einside : ∀ i, i ≤ n → Energy (padded (k * hop) tail x) frame ((k + i) * hop) = Energy x frame (i * hop) :=
    fun i hi => by rw [Nat.add_mul]; exact energy_inside (hin i hi)
  have ebefore : ∀ i, i ≤ k → Energy (padded (k * hop) tail x) frame (i * hop) = 0 :=
    fun i hi => energy_before hf hq (Nat.mul_le_mul_right _ hi)
  have eafter : ∀ i, n < i → Energy (padded (k * hop) tail x) frame ((k + i) * hop) = 0 := fun i hi => by
    rw [Nat.add_mul]
    have := hout i hi
    exact energy_after hf hq (by omega)
  refine ⟨N - n, List.ext_getElem? fun i => ?_⟩
  rw [getElem?_padded, h.1]
  have hz : F32.max ((0 : F32) - 0) 0 = 0 := by decide +kernel
  split_ifs with h1 h2 h3
  · rw [h'.2 i (by omega)]
    dsimp only
    rw [ebefore i (by omega), ebefore (i + 1) (by omega), hz]
  · obtain ⟨j, rfl⟩ : ∃ j, i = k + j := ⟨i - k, by omega⟩
    rw [h'.2 _ (by omega), Nat.add_sub_cancel_left, h.2 j (by omega)]
    dsimp only
    rw [einside j (by omega), Nat.add_assoc, einside (j + 1) (by omega)]
  · obtain ⟨j, rfl⟩ : ∃ j, i = k + j := ⟨i - k, by omega⟩
    rw [h'.2 _ (by omega)]
    dsimp only
    rw [Nat.add_assoc, eafter (j + 1) (by omega)]
    exact congrArg some (fall_zero (sqrt_nan_or_nonneg _))
  · rw [List.getElem?_eq_none]; rw [h'.1]; omega

/-- **C122 (energy flux).** Silence before a recording delays its onsets by exactly that much, and silence after it changes
nothing, provided the recording itself starts and ends with one silent frame. -/
theorem C122_energy_flux (M : Libm) {x out out' : List _} {frame hop k tail : ℕ} {thrDb : F32}
    (hf : 1 ≤ frame) (hh : 1 ≤ hop) (hl : frame + 2 * hop ≤ x.length) (hq : QuietEnds frame x)
    (hp : 0 ≤ M.powf 10 (thrDb / 20))
    (h : energyFluxOnsets M x frame hop thrDb = .ok out)
    (h' : energyFluxOnsets M (padded (k * hop) tail x) frame hop thrDb = .ok out') :
    out' = out.map (k * hop + ·) := by
  obtain ⟨o, e, p1, -, f, m, r1, m1, l1, g1⟩ := (C08_energy_flux_onsets M x frame hop thrDb).2 (by omega)
  obtain ⟨o', e', p2, -, f', m', r2, m2, l2, g2⟩ :=
    (C08_energy_flux_onsets M (padded (k * hop) tail x) frame hop thrDb).2 (by omega)
  rw [h] at e
  rw [h'] at e'
  obtain rfl := Except.ok.inj e
  obtain rfl := Except.ok.inj e'
  rw [if_pos (by omega)] at r1
  rw [if_pos (by simp [padded]; omega)] at r2
  obtain ⟨t, rfl⟩ := rise_padded hf hh hq (by omega) rfl r1 r2
  have hmm := isMax0_unique m2 (isMax0_padded m1)
  subst hmm
  by_cases hz : m' ≤ 1e-10
  · rw [l1 hz, l2 hz]; rfl
  have hfl : 2 ≤ f.length := by
    rw [r1.1]; exact (Nat.le_div_iff_mul_le hh).2 (by omega)
  apply List.Pairwise.eq_of_mem_iff (p2.imp fun h => h.1)
  · rw [List.pairwise_map]; exact p1.imp fun h => by omega
  · intro a
    rw [g2 hz, List.mem_map]
    by_cases hnan : m' * M.powf 10 (thrDb / 20) = nan
    · rw [hnan] at g1 ⊢
      constructor
      · rintro ⟨j, rfl, -, -, y, -, hlt, -⟩; simp at hlt
      · rintro ⟨b, hb, -⟩
        obtain ⟨j, rfl, -, -, y, -, hlt, -⟩ := (g1 hz b).1 hb
        simp at hlt
    · simp only [fluxPeak_padded hfl (F32.mul_nonneg m1.2.1 hp hnan), g1 hz]
      constructor
      · rintro ⟨_, rfl, j, rfl, hj⟩
        exact ⟨j * hop, ⟨j, rfl, hj⟩, by rw [Nat.add_mul]⟩
      · rintro ⟨_, ⟨j, rfl, hj⟩, rfl⟩
        exact ⟨k + j, by rw [Nat.add_mul], j, rfl, hj⟩

/-! ### Frame-based detectors -/

theorem diffFlux_cons (a b : F32) (l : List F32) : diffFlux (a :: b :: l) = F32.max (b - a) 0 :: diffFlux (b :: l) := by
  unfold diffFlux
  simp only [List.length_cons, Nat.add_sub_cancel, List.range_succ_eq_map, List.map_cons, List.map_map]
  rfl

theorem spectralFlux_cons (a b : List F32) (l : List (List F32)) :
    spectralFlux (a :: b :: l) = RiseNorm (normFrame a) (normFrame b) :: spectralFlux (b :: l) := by
  unfold spectralFlux
  simp only [List.map_cons, List.length_cons, Nat.add_sub_cancel, List.range_succ_eq_map, List.map_map]
  rfl

/-- The frames with the first one held for `k` more frames. -/
def held {α : Type} (k : ℕ) : List α → List α
  | [] => []
  | a :: l => List.replicate k a ++ a :: l

theorem held_succ {α : Type} (k : ℕ) (a : α) (l : List α) : held (k + 1) (a :: l) = a :: held k (a :: l) := by
  simp [held, List.replicate_succ]

theorem held_cons {α : Type} (k : ℕ) (a : α) (l : List α) : ∃ l', held k (a :: l) = a :: l' := by
  cases k with
  | zero => exact ⟨l, rfl⟩
  | succ k => exact ⟨_, held_succ k a l⟩

theorem held_map {α β : Type} (g : α → β) (k : ℕ) (l : List α) : (held k l).map g = held k (l.map g) := by
  cases l <;> simp [held]

theorem diffFlux_held (k : ℕ) (a : F32) (l : List F32) :
    diffFlux (held k (a :: l)) = List.replicate k 0 ++ diffFlux (a :: l) := by
  induction k with
  | zero => rfl
  | succ k ih =>
    obtain ⟨l', hl'⟩ := held_cons k a l
    rw [held_succ, hl', diffFlux_cons, ← hl', ih, List.replicate_succ, List.cons_append]
    congr 1
    rcases a with _ | (_ | _) | ⟨v, hv⟩
    · decide +kernel
    · decide +kernel
    · decide +kernel
    · rw [sub_fin, sub_self, rnd_zero]; decide +kernel

theorem spectralFlux_held (k : ℕ) (a : List F32) (l : List (List F32)) :
    spectralFlux (held k (a :: l)) = List.replicate k 0 ++ spectralFlux (a :: l) := by
  induction k with
  | zero => rfl
  | succ k ih =>
    obtain ⟨l', hl'⟩ := held_cons k a l
    rw [held_succ, hl', spectralFlux_cons, ← hl', ih, List.replicate_succ, List.cons_append]
    congr 1
    exact riseNorm_self _

/-- The rank of the percentile moves by at most the number of added frames (exact arithmetic always gives this; the
rounded product of a frame count and the percentile could in principle be off by one). -/
def RankFits (n k : ℕ) (p : F32) : Prop :=
  (F32.ofNat (k + n) * p).toUsize ≤ (F32.ofNat n * p).toUsize + k

/-- Added zeros can only lower the percentile threshold. -/
theorem percentile_held {f : List F32} {p thr thr' : F32} {k : ℕ} (hf : ∀ x ∈ f, 0 ≤ x)
    (hr : RankFits f.length k p) (h : IsPercentile f p thr) (h' : IsPercentile (List.replicate k 0 ++ f) p thr') :
    thr' ≤ thr := by
  have h0 : ∀ x ∈ List.replicate k 0 ++ f, (0 : F32) ≤ x := by
    intro x hx
    rcases List.mem_append.1 hx with hx | hx
    · rw [List.eq_of_mem_replicate hx]; exact F32.le_refl zero_ne_nan
    · exact hf x hx
  by_contra hc
  have hlt := F32.lt_of_not_le (ne_nan_right (hf _ h.1)) (ne_nan_right (h0 _ h'.1)) hc
  have hcount : (List.replicate k 0 ++ f).countP (fun x => decide (x ≤ thr)) +
      (List.replicate k 0 ++ f).countP (fun x => decide (thr' ≤ x)) ≤ (List.replicate k 0 ++ f).length := by
    have e := List.length_eq_countP_add_countP (l := List.replicate k 0 ++ f) (fun x => decide (x ≤ thr))
    have : (List.replicate k 0 ++ f).countP (fun x => decide (thr' ≤ x)) ≤
        (List.replicate k 0 ++ f).countP (fun x => ¬ (decide (x ≤ thr) = true)) := by
      apply List.countP_mono_left
      intro x _ hx
      simp only [decide_eq_true_iff] at *
      exact fun hx' => F32.lt_irrefl _ (F32.lt_of_lt_of_le hlt (F32.le_trans hx hx'))
    omega
  have hk : (List.replicate k (0 : F32)).countP (fun x => decide (x ≤ thr)) = k := by
    rw [List.countP_replicate, if_pos (by simpa using hf _ h.1)]
  rw [List.countP_append, hk] at hcount
  have a1 := h.2.1
  have a2 := h'.2.2
  have hl := List.length_pos_of_mem h.1
  have hlen : (List.replicate k (0 : F32) ++ f).length = k + f.length := by simp
  rw [hlen] at a2 hcount
  unfold RankFits at hr
  have b1 : Nat.min (F32.ofNat (k + f.length) * p).toUsize (k + f.length - 1) ≤
      Nat.min (F32.ofNat f.length * p).toUsize (f.length - 1) + k := by
    simp only [Nat.min_def]
    split_ifs <;> omega
  omega

theorem pick_held {f : List F32} {p : F32} {k : ℕ} {out out' : List ℕ} (h0 : f ≠ []) (hf : ∀ x ∈ f, 0 ≤ x)
    (hr : RankFits f.length k p) (h1 : pickFrames f p = .ok out)
    (h2 : pickFrames (List.replicate k 0 ++ f) p = .ok out') : ∀ j ∈ out, k + j ∈ out' := by
  have hf' : ∀ x ∈ List.replicate k 0 ++ f, (0 : F32) ≤ x := by
    intro x hx
    rcases List.mem_append.1 hx with hx | hx
    · rw [List.eq_of_mem_replicate hx]; exact F32.le_refl zero_ne_nan
    · exact hf x hx
  obtain ⟨o, thr, e, i1, q1⟩ := pickFrames_spec (p := p) (n := f.length + 1) h0 rfl (fun x hx => ne_nan_right (hf x hx))
  obtain ⟨o', thr', e', i2, q2⟩ := pickFrames_spec (p := p) (n := (List.replicate k 0 ++ f).length + 1) (by simp [h0]) rfl
    (fun x hx => ne_nan_right (hf' x hx))
  rw [h1] at e
  rw [h2] at e'
  obtain rfl := Except.ok.inj e
  obtain rfl := Except.ok.inj e'
  intro j hj
  have hpk := (q1.2.2 j).1 hj
  rw [q2.2.2]
  have := (fluxPeak_padded (k := k) (t := 0) (q := k + j) hpk.1 (hf' _ i2.1)).2
    ⟨j, rfl, fluxPeak_lower hpk (percentile_held hf hr i1 i2)⟩
  simpa using this

/-- **C122 (frame-based detectors, part).** When the first frame is held for `k` more frames, every onset is still reported,
`k` frames later.  The other direction fails: `C122_violated`. -/
theorem C122_spectral_flux_partial {mags : List (List F32)} {p : F32} {k : ℕ} {out out' : List ℕ}
    (hr : RankFits (mags.length - 1) k p)
    (h1 : spectralFluxOnsets mags p = .ok out) (h2 : spectralFluxOnsets (held k mags) p = .ok out') :
    ∀ j ∈ out, k + j ∈ out' := by
  rcases mags with _ | ⟨a, l⟩
  · obtain rfl : out = [] := by simpa [spectralFluxOnsets, eq_comm] using h1
    simp
  have hne : held k (a :: l) ≠ [] := by obtain ⟨l', h⟩ := held_cons k a l; simp [h]
  have hlen : (held k (a :: l)).length = k + (l.length + 1) := by simp [held]
  unfold spectralFluxOnsets at h1 h2
  rw [if_neg (by simp)] at h1
  rw [if_neg hne] at h2
  cases f1 : framesOk (a :: l) p with
  | some e => rw [f1] at h1; cases h1
  | none =>
    cases f2 : framesOk (held k (a :: l)) p with
    | some e => rw [f2] at h2; cases h2
    | none =>
      rw [f1] at h1
      rw [f2] at h2
      dsimp only at h1 h2
      by_cases hl : (a :: l).length < 2
      · rw [if_pos hl] at h1; rw [ok_nil h1]; simp
      simp only [List.length_cons] at hl
      rw [if_neg (by simpa using hl)] at h1
      rw [if_neg (by omega)] at h2
      have hf : spectralFlux (a :: l) ≠ [] := by
        rw [← List.length_pos_iff, length_spectralFlux, List.length_cons]; omega
      rw [if_neg hf] at h1
      rw [if_neg (by rw [spectralFlux_held]; simp [hf]), spectralFlux_held] at h2
      exact pick_held hf spectralFlux_nonneg (by simpa using hr) h1 h2

/-- **C122 (high-frequency content, part).** -/
theorem C122_hfc_partial {mags : List (List F32)} {p : F32} {sr k : ℕ} {out out' : List ℕ}
    (hr : RankFits (mags.length - 1) k p)
    (h1 : hfcOnsets mags sr p = .ok out) (h2 : hfcOnsets (held k mags) sr p = .ok out') :
    ∀ j ∈ out, k + j ∈ out' := by
  rcases mags with _ | ⟨a, l⟩
  · obtain rfl : out = [] := by simpa [hfcOnsets, eq_comm] using h1
    simp
  have hne : held k (a :: l) ≠ [] := by obtain ⟨l', h⟩ := held_cons k a l; simp [h]
  have hlen : (held k (a :: l)).length = k + (l.length + 1) := by simp [held]
  unfold hfcOnsets at h1 h2
  rw [if_neg (by simp)] at h1
  rw [if_neg hne] at h2
  by_cases hs : sr = 0
  · rw [if_pos hs] at h1; cases h1
  rw [if_neg hs] at h1 h2
  cases f1 : framesOk (a :: l) p with
  | some e => rw [f1] at h1; cases h1
  | none =>
    cases f2 : framesOk (held k (a :: l)) p with
    | some e => rw [f2] at h2; cases h2
    | none =>
      rw [f1] at h1
      rw [f2] at h2
      dsimp only at h1 h2
      by_cases hl : (a :: l).length < 2
      · rw [if_pos hl] at h1; rw [ok_nil h1]; simp
      simp only [List.length_cons] at hl
      rw [if_neg (by simpa using hl)] at h1
      rw [if_neg (by omega)] at h2
      have hf : diffFlux ((a :: l).map hfcOf) ≠ [] := by
        rw [← List.length_pos_iff, length_diffFlux, List.length_map, List.length_cons]; omega
      have e : diffFlux ((held k (a :: l)).map hfcOf) = List.replicate k 0 ++ diffFlux ((a :: l).map hfcOf) := by
        rw [held_map, List.map_cons, diffFlux_held]
      rw [if_neg hf] at h1
      rw [if_neg (by rw [e]; exact List.append_ne_nil_of_right_ne_nil _ hf), e] at h2
      exact pick_held hf diffFlux_nonneg (by simpa using hr) h1 h2

/-- **C122 (percussive energy, part).** -/
theorem C122_hpss_partial {perc : List (List F32)} {p : F32} {k : ℕ} {out out' : List ℕ}
    (hr : RankFits (perc.length - 1) k p)
    (h1 : hpssOnsets perc p = .ok out) (h2 : hpssOnsets (held k perc) p = .ok out') :
    ∀ j ∈ out, k + j ∈ out' := by
  rcases perc with _ | ⟨a, l⟩
  · obtain rfl : out = [] := by simpa [hpssOnsets, eq_comm] using h1
    simp
  have hne : held k (a :: l) ≠ [] := by obtain ⟨l', h⟩ := held_cons k a l; simp [h]
  have hlen : (held k (a :: l)).length = k + (l.length + 1) := by simp [held]
  unfold hpssOnsets at h1 h2
  rw [if_neg (by simp)] at h1
  rw [if_neg hne] at h2
  by_cases hs : ¬ inUnit p = true
  · rw [if_pos hs] at h1; cases h1
  rw [if_neg hs] at h1 h2
  by_cases hl : (a :: l).length < 2
  · rw [if_pos hl] at h1; rw [ok_nil h1]; simp
  simp only [List.length_cons] at hl
  rw [if_neg (by simpa using hl)] at h1
  rw [if_neg (by omega)] at h2
  dsimp only at h1 h2
  have hf : diffFlux ((a :: l).map (fun fr => F32.sum (fr.map (fun x => x * x)))) ≠ [] := by
    rw [← List.length_pos_iff, length_diffFlux, List.length_map, List.length_cons]; omega
  have e : diffFlux ((held k (a :: l)).map (fun fr => F32.sum (fr.map (fun x => x * x)))) =
      List.replicate k 0 ++ diffFlux ((a :: l).map (fun fr => F32.sum (fr.map (fun x => x * x)))) := by
    rw [held_map, List.map_cons, diffFlux_held]
  rw [if_neg hf] at h1
  rw [if_neg (by rw [e]; exact List.append_ne_nil_of_right_ne_nil _ hf), e] at h2
  exact pick_held hf diffFlux_nonneg (by simpa using hr) h1 h2

/-- **C122 is violated** by the percentile detectors: silence in front of the music lowers the threshold, so the same music
now has an onset it did not have before. -/
theorem C122_violated :
    (hfcOnsets [[0, 0], [0, 2], [0, 2], [0, 0], [0, 5], [0, 5], [0, 5]] 44100 0.7 = .ok [4] ∧
      hfcOnsets (held 4 [[0, 0], [0, 2], [0, 2], [0, 0], [0, 5], [0, 5], [0, 5]]) 44100 0.7 = .ok [5, 8]) ∧
    (spectralFluxOnsets [[0, 0], [1, 2], [1, 2], [0, 0], [4, 4], [4, 4]] 0.6 = .ok [4] ∧
      spectralFluxOnsets (held 4 [[0, 0], [1, 2], [1, 2], [0, 0], [4, 4], [4, 4]]) 0.6 = .ok [5, 8]) ∧
    hpssOnsets [[0], [2], [2], [0], [5], [5], [5]] 0.7 = .ok [4] ∧
      hpssOnsets (held 4 [[0], [2], [2], [0], [5], [5], [5]]) 0.7 = .ok [5, 8] := by decide +kernel

/-! `C122_energy_flux`: two samples of silence around a burst; six zeros in front, three behind. -/
example : QuietEnds 2 [0, 0, 1, 1, 3, 0, 0] ∧ 0 ≤ Libm.demo.powf 10 (-40 / 20) ∧
    energyFluxOnsets Libm.demo [0, 0, 1, 1, 3, 0, 0] 2 1 (-40) = .ok [1, 3] ∧
    energyFluxOnsets Libm.demo (padded (6 * 1) 3 [0, 0, 1, 1, 3, 0, 0]) 2 1 (-40) = .ok [7, 9] := by
  refine ⟨?_, by decide +kernel, by decide +kernel, by decide +kernel⟩
  intro s v hs h
  have := (List.getElem?_eq_some_iff.1 hs).1
  simp only [List.length_cons, List.length_nil] at this h
  have hc : s = 0 ∨ s = 1 ∨ s = 5 ∨ s = 6 := by omega
  rcases hc with rfl | rfl | rfl | rfl <;> simpa using hs.symm

/-! The rank condition of the partial theorems, for the example of `C122_violated` and for 10 000 frames. -/
example : RankFits 6 4 0.7 ∧ RankFits 5 4 0.6 ∧ RankFits 10000 500 0.8 := by unfold RankFits; decide +kernel

end Verif.Props
