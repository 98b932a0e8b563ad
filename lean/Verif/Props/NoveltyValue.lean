import Verif.Props.NoveltyRise
import Verif.Props.TempoFit
import Mathlib.Data.Real.Basic

/-! Property theorems for claim C111: the values of the novelty curves, against exact arithmetic. -/

namespace Verif.Props

open Verif Verif.Novelty F32

/-! ### specification -/

/-- energy of a frame, in exact arithmetic -/
def exactEnergy (fr : List F32) : ℚ := (fr.map (fun x : F32 => x.val * x.val)).sum

/-- high-frequency content of a frame: the energy of each bin times its number, in exact arithmetic -/
def exactHfc (fr : List F32) : ℚ := (fr.zipIdx.map (fun p : F32 × ℕ => (p.2 : ℚ) * (p.1.val * p.1.val))).sum

/-- by how much a quantity rises from frame `i` to frame `i + 1`, 0 if it falls -/
def exactRise (E : List F32 → ℚ) (spec : List (List F32)) (i : ℕ) : ℚ :=
  Max.max (E (spec.getD (i + 1) []) - E (spec.getD i [])) 0

/-! ### scaling to the peak -/

theorem peakNorm_close {r : List F32} {R : ℕ → ℝ} {δ M : ℝ} (hδ : 0 ≤ δ)
    (hr : ∀ i < r.length, ∃ v hv, Novelty.at' r i = fin v hv ∧ 0 ≤ v ∧ |(v : ℝ) - R i| ≤ δ)
    (hM : ∃ j < r.length, R j = M) (hle : ∀ i < r.length, R i ≤ M) (hbig : 1 / 10 ^ 9 + δ ≤ M) :
    ∀ i < r.length, ∃ w hw, Novelty.at' (peakNorm r) i = fin w hw ∧ 0 ≤ w ∧ w ≤ 1 ∧
      |(w : ℝ) - R i / M| ≤ 2 * δ / M + 1 / 2 ^ 23 := by
  obtain ⟨m0, mn, mle, mmem⟩ := foldMax_spec (l := r) (a := 0) zero_ne_nan
  have hmem : ∀ i < r.length, Novelty.at' r i ∈ r := fun i hi => by
    unfold Novelty.at'
    rw [List.getD_eq_getElem?_getD, List.getElem?_eq_getElem hi]
    exact List.getElem_mem hi
  have hidx : ∀ x ∈ r, ∃ i < r.length, Novelty.at' r i = x := fun x hx => by
    obtain ⟨i, hi, e⟩ := List.mem_iff_getElem.1 hx
    refine ⟨i, hi, ?_⟩
    unfold Novelty.at'
    rw [List.getD_eq_getElem?_getD, List.getElem?_eq_getElem hi]
    exact e
  obtain ⟨j, hj, ej⟩ := hM
  -- the computed peak
  have hpk : ∃ m hm, foldMax 0 r = fin m hm ∧ |(m : ℝ) - M| ≤ δ := by
    obtain ⟨vj, hvj, e1, v0, v1⟩ := hr j hj
    have hjle := mle _ (hmem j hj) (by rw [e1]; simp)
    rw [e1] at hjle
    have hcase : ∃ m hm, foldMax 0 r = fin m hm ∧ (m : ℝ) ≤ M + δ := by
      rcases mmem with e | e
      · refine ⟨0, grid_zero, by rw [e, zero_def], ?_⟩
        push_cast
        have : (0 : ℝ) < 1 / 10 ^ 9 := by norm_num
        linarith
      · obtain ⟨i, hi, e2⟩ := hidx _ e
        obtain ⟨v, hv, e3, _, h3⟩ := hr i hi
        refine ⟨v, hv, by rw [← e2, e3], ?_⟩
        have := (abs_le.1 h3).2
        have := hle i hi
        linarith
    obtain ⟨m, hm, e, h2⟩ := hcase
    rw [e] at hjle
    have h3 : (vj : ℝ) ≤ m := (Rat.cast_le (K := ℝ)).2 (fin_le_fin.1 hjle)
    refine ⟨m, hm, e, abs_le.2 ⟨?_, by linarith⟩⟩
    have := (abs_le.1 v1).1
    linarith
  obtain ⟨m, hm, em, hmM⟩ := hpk
  have hm' := abs_le.1 hmM
  have hm9 : (1 : ℝ) / 10 ^ 9 ≤ m := by linarith [hm'.1]
  have hm9q : (1 : ℚ) / 10 ^ 9 ≤ m := by
    refine (Rat.cast_le (K := ℝ)).1 ?_
    push_cast
    exact hm9
  have hmpos : 0 < m := _root_.lt_of_lt_of_le (by norm_num) hm9q
  have hmposR : (0 : ℝ) < m := by exact_mod_cast hmpos
  have hMpos : 0 < M := by
    have : (0 : ℝ) < 1 / 10 ^ 9 := by norm_num
    linarith
  have hE : EPS < foldMax 0 r := by
    rw [em]
    have e : EPS = fin (rndQ (1 / 10 ^ 10)) (by decide +kernel) := by decide +kernel
    rw [e, fin_lt_fin]
    refine _root_.lt_of_lt_of_le ?_ hm9q
    decide +kernel
  intro i hi
  obtain ⟨v, hv, e1, v0, v1⟩ := hr i hi
  have hvm : v ≤ m := by
    have := mle _ (hmem i hi) (by rw [e1]; simp)
    rw [e1, em] at this
    exact fin_le_fin.1 this
  have hq0 : 0 ≤ v / m := div_nonneg v0 hmpos.le
  have hq1 : v / m ≤ 1 := (div_le_one₀ hmpos).2 hvm
  obtain ⟨hw, ew⟩ := fin_of_le (q := v / m) (by rw [_root_.abs_of_nonneg hq0]; exact _root_.le_trans hq1 (by norm_num))
  refine ⟨rndQ (v / m), hw, ?_, rndQ_nonneg hq0, ?_, ?_⟩
  · unfold peakNorm
    dsimp only
    rw [if_pos hE, map_at hi, e1, em, div_fin hmpos.ne', ew]
  · have := rndQ_mono hq1
    rwa [show rndQ 1 = 1 by decide +kernel] at this
  · have he := err_pow (v / m)
    have he2 : |rndQ (v / m) - v / m| ≤ 1 / 2 ^ 23 - 1 / 2 ^ 25 := by
      rw [_root_.abs_of_nonneg hq0] at he
      norm_num at he hq1 ⊢
      linarith
    have he3 : |((rndQ (v / m) : ℚ) : ℝ) - (v : ℝ) / m| ≤ 1 / 2 ^ 23 := by
      have := (Rat.cast_le (K := ℝ)).2 he2
      push_cast at this
      norm_num at this ⊢
      linarith
    have hq1R : (v : ℝ) / m ≤ 1 := by
      have := (Rat.cast_le (K := ℝ)).2 hq1
      push_cast at this
      exact this
    have hq0R : 0 ≤ (v : ℝ) / m := by
      have := (Rat.cast_le (K := ℝ)).2 hq0
      push_cast at this
      exact this
    have hd : |(v : ℝ) / m - R i / M| ≤ 2 * δ / M := by
      have e : (v : ℝ) / m - R i / M = ((v : ℝ) / m * (M - m) + (v - R i)) / M := by
        field_simp
        ring
      rw [e, abs_div, abs_of_pos hMpos, div_le_div_iff_of_pos_right hMpos]
      have h1 := abs_add_le ((v : ℝ) / m * (M - m)) (v - R i)
      have h2 : |(v : ℝ) / m * (M - m)| ≤ δ := by
        rw [_root_.abs_mul, _root_.abs_of_nonneg hq0R]
        have : |M - m| ≤ δ := by rw [abs_sub_comm]; exact hmM
        calc (v : ℝ) / m * |M - m| ≤ 1 * δ := _root_.mul_le_mul hq1R this (_root_.abs_nonneg _) (by norm_num)
          _ = δ := _root_.one_mul δ
      linarith
    have := abs_add_le (((rndQ (v / m) : ℚ) : ℝ) - (v : ℝ) / m) ((v : ℝ) / m - R i / M)
    rw [sub_add_sub_cancel] at this
    linarith

/-! ### rises -/

/-- a rise computed from values that are accurate to `γ` -/
theorem rise_close {a b : F32} {A B γ K : ℚ} (hγ0 : 0 ≤ γ) (hγ : γ ≤ K) (hK : K ≤ 2 ^ 50) (ha : ∃ v hv, a = fin v hv ∧ |v - A| ≤ γ)
    (hb : ∃ v hv, b = fin v hv ∧ |v - B| ≤ γ) (hA0 : 0 ≤ A) (hA : A ≤ K) (hB0 : 0 ≤ B) (hB : B ≤ K) :
    ∃ v hv, F32.max (b - a) 0 = fin v hv ∧ 0 ≤ v ∧ |v - Max.max (B - A) 0| ≤ 2 * γ + 4 * K / 2 ^ 24 + 1 / 2 ^ 150 := by
  obtain ⟨va, hva, rfl, ha⟩ := ha
  obtain ⟨vb, hvb, rfl, hb⟩ := hb
  have ha' := abs_le.1 ha
  have hb' := abs_le.1 hb
  have hd : |vb - va| ≤ 4 * K := by
    rw [abs_le]; constructor <;> linarith
  obtain ⟨hq, e⟩ := fin_of_le (q := vb - va) (_root_.le_trans hd (by norm_num at hK ⊢; linarith))
  have he := err_pow (vb - va)
  have he2 : |rndQ (vb - va) - (vb - va)| ≤ 4 * K / 2 ^ 24 + 1 / 2 ^ 150 := by
    refine _root_.le_trans he ?_
    norm_num at hd ⊢
    linarith
  have h3 : |rndQ (vb - va) - (B - A)| ≤ 2 * γ + 4 * K / 2 ^ 24 + 1 / 2 ^ 150 := by
    have := abs_le.1 he2
    rw [abs_le]; constructor <;> linarith
  rw [sub_fin, e]
  have emax : ∃ hv, F32.max (fin (rndQ (vb - va)) hq) 0 = fin (Max.max (rndQ (vb - va)) 0) hv := by
    rcases _root_.le_total 0 (rndQ (vb - va)) with h | h
    · rw [max_eq_left h]
      have h' : (0 : F32) ≤ fin (rndQ (vb - va)) hq := by rw [zero_def, fin_le_fin]; exact h
      exact ⟨hq, F32.le_antisymm (F32.max_le (F32.le_refl (by simp)) h') (F32.le_max_left (by simp))⟩
    · rw [max_eq_right h]
      have h' : fin (rndQ (vb - va)) hq ≤ (0 : F32) := by rw [zero_def, fin_le_fin]; exact h
      refine ⟨grid_zero, ?_⟩
      rw [← zero_def]
      exact F32.le_antisymm (F32.max_le h' (F32.le_refl zero_ne_nan)) (F32.le_max_right zero_ne_nan)
  obtain ⟨hv, em⟩ := emax
  refine ⟨_, hv, em, le_max_right _ _, ?_⟩
  refine _root_.le_trans ?_ h3
  exact abs_max_sub_max_le_abs _ _ _

/-- the rises of a quantity accurate to `γ`, scaled to their peak -/
theorem rise_curve {f : List F32 → F32} {E : List F32 → ℚ} {spec : List (List F32)} {B γ M : ℚ} (hγ0 : 0 ≤ γ) (hγ : γ ≤ B)
    (hB : B ≤ 2 ^ 50) (hf : ∀ fr ∈ spec, ∃ v hv, f fr = fin v hv ∧ |v - E fr| ≤ γ) (hE : ∀ fr ∈ spec, 0 ≤ E fr ∧ E fr ≤ B)
    (hM : ∃ j, j + 1 < spec.length ∧ exactRise E spec j = M) (hle : ∀ i, i + 1 < spec.length → exactRise E spec i ≤ M)
    (hM1 : 1 / 10 ^ 9 + (2 * γ + 4 * B / 2 ^ 24 + 1 / 2 ^ 150) ≤ M) :
    ∀ i, i + 1 < spec.length → ∃ w hw, (peakNorm (rise (spec.map f))).getD i 0 = fin w hw ∧ 0 ≤ w ∧ w ≤ 1 ∧
      |w - exactRise E spec i / M| ≤ 2 * (2 * γ + 4 * B / 2 ^ 24 + 1 / 2 ^ 150) / M + 1 / 2 ^ 23 := by
  set δ := 2 * γ + 4 * B / 2 ^ 24 + 1 / 2 ^ 150 with hδ
  have hB0 : 0 ≤ B := _root_.le_trans hγ0 hγ
  have hδ0 : 0 ≤ δ := by rw [hδ]; positivity
  have hlen : (rise (spec.map f)).length = spec.length - 1 := by rw [rise_length, List.length_map]
  have getmem : ∀ j, j < spec.length → (spec.getD j []) ∈ spec := by
    intro j hj
    rw [List.getD_eq_getElem?_getD, List.getElem?_eq_getElem hj]
    exact List.getElem_mem hj
  have hmap : ∀ j, j < spec.length → Novelty.at' (spec.map f) j = f (spec.getD j []) := by
    intro j hj
    unfold Novelty.at'
    rw [List.getD_eq_getElem?_getD, List.getElem?_map, List.getD_eq_getElem?_getD, List.getElem?_eq_getElem hj]; rfl
  have hr : ∀ i < (rise (spec.map f)).length, ∃ v hv, Novelty.at' (rise (spec.map f)) i = fin v hv ∧ 0 ≤ v ∧
      |v - exactRise E spec i| ≤ δ := by
    intro i hi
    rw [hlen] at hi
    have h1 := getmem i (by omega)
    have h2 := getmem (i + 1) (by omega)
    have e : Novelty.at' (rise (spec.map f)) i = F32.max (f (spec.getD (i + 1) []) - f (spec.getD i [])) 0 := by
      unfold rise
      rw [← hmap i (by omega), ← hmap (i + 1) (by omega)]
      exact range_map_get _ _ (by rw [List.length_map]; omega)
    rw [e]
    exact rise_close hγ0 hγ hB (hf _ h1) (hf _ h2) (hE _ h1).1 (hE _ h1).2 (hE _ h2).1 (hE _ h2).2
  intro i hi
  have key := peakNorm_close (r := rise (spec.map f)) (R := fun i => ((exactRise E spec i : ℚ) : ℝ)) (δ := (δ : ℝ)) (M := (M : ℝ))
    (by exact_mod_cast hδ0) (fun j hj => by
      obtain ⟨v, hv, e, v0, h⟩ := hr j hj
      refine ⟨v, hv, e, v0, ?_⟩
      have := (Rat.cast_le (K := ℝ)).2 h
      push_cast at this
      exact this)
    (by
      obtain ⟨j, hj, e⟩ := hM
      exact ⟨j, by rw [hlen]; omega, by rw [e]⟩)
    (fun j hj => (Rat.cast_le (K := ℝ)).2 (hle j (by rw [hlen] at hj; omega)))
    (by
      have := (Rat.cast_le (K := ℝ)).2 hM1
      push_cast at this ⊢
      exact this) i (by rw [hlen]; omega)
  obtain ⟨w, hw, e, w0, w1, h⟩ := key
  refine ⟨w, hw, e, w0, w1, ?_⟩
  refine (Rat.cast_le (K := ℝ)).1 ?_
  push_cast
  exact h

/-! ### the energy and the high-frequency content of one frame -/

theorem terms_close {α} (L : List α) (f : α → F32) (g : α → ℚ) {B : ℚ} (hB : B ≤ 2 ^ 50) (hl : L.length ≤ 2 ^ 20)
    (hg : ∀ a ∈ L, 0 ≤ g a) (hs : (L.map g).sum ≤ B)
    (hf : ∀ a ∈ L, g a ≤ 2 ^ 50 → (f a).isFinite = true ∧ 0 ≤ (f a).val ∧ |(f a).val - g a| ≤ g a * (1 / 2 ^ 22) + 1 / 2 ^ 90) :
    ∃ v hv, F32.sum (L.map f) = fin v hv ∧ 0 ≤ v ∧ |v - (L.map g).sum| ≤ B * ((1 + L.length) / 2 ^ 22) + 1 / 2 ^ 60 := by
  have hone : ∀ a ∈ L, g a ≤ B := fun a ha => by
    refine _root_.le_trans (List.single_le_sum ?_ _ (List.mem_map_of_mem ha)) hs
    intro x hx
    obtain ⟨b, hb, rfl⟩ := List.mem_map.1 hx
    exact hg b hb
  have hf' := fun a ha => hf a ha (_root_.le_trans (hone a ha) hB)
  have hs0 : 0 ≤ (L.map g).sum := List.sum_nonneg (fun x hx => by
    obtain ⟨b, hb, rfl⟩ := List.mem_map.1 hx
    exact hg b hb)
  have hlq : (L.length : ℚ) ≤ 1048576 := by exact_mod_cast hl
  have hl0 : (0 : ℚ) ≤ L.length := by positivity
  obtain ⟨v, hv, h1, h2, h3⟩ := sum_terms L f g (1 / 2 ^ 22) (1 / 2 ^ 90) (by norm_num) (by norm_num) hg hf' (by
    rw [List.map_map]
    refine _root_.le_trans (sum_map_le _ _ (2 ^ 52) (fun a ha => ?_)) ?_
    · have h1 := (abs_le.1 (hf' a ha).2.2).2
      have h2 := hone a ha
      show (f a).val ≤ _
      norm_num at h1 hB ⊢
      linarith
    · norm_num
      linarith) hl
  refine ⟨v, hv, h1, h2, _root_.le_trans h3 ?_⟩
  have h4 : (L.map g).sum * (1 / 2 ^ 22 + L.length / 2 ^ 22) ≤ B * ((1 + L.length) / 2 ^ 22) := by
    rw [← add_div]
    exact _root_.mul_le_mul_of_nonneg_right hs (by positivity)
  have h5 : (L.length : ℚ) * (2 * (1 / 2 ^ 90) + 1 / 2 ^ 149) ≤ 1 / 2 ^ 60 := by
    norm_num
    linarith
  linarith

/-- a product of two nonnegative numbers -/
theorem mul_close {a b : ℚ} {ha hb} (a0 : 0 ≤ a) (b0 : 0 ≤ b) (h : a * b ≤ 2 ^ 59) :
    ∃ v hv, fin a ha * fin b hb = fin v hv ∧ 0 ≤ v ∧ |v - a * b| ≤ a * b / 2 ^ 24 + 1 / 2 ^ 150 := by
  have m0 := _root_.mul_nonneg a0 b0
  obtain ⟨hv, e⟩ := fin_of_le (q := a * b) (by rw [_root_.abs_of_nonneg m0]; norm_num at h ⊢; linarith)
  refine ⟨_, hv, by rw [mul_fin, e], rndQ_nonneg m0, ?_⟩
  have := err_pow (a * b)
  rwa [_root_.abs_of_nonneg m0] at this

theorem energy_close {fr : List F32} {B : ℚ} (hfr : ∀ x ∈ fr, x.isFinite = true ∧ 0 ≤ x.val) (hn : fr.length ≤ 2 ^ 20)
    (hB : B ≤ 2 ^ 50) (hE : exactEnergy fr ≤ B) :
    ∃ v hv, energy fr = fin v hv ∧ 0 ≤ v ∧ |v - exactEnergy fr| ≤ B * ((1 + fr.length) / 2 ^ 22) + 1 / 2 ^ 60 := by
  refine terms_close fr (fun x => x * x) (fun x => x.val * x.val) hB hn (fun x _ => mul_self_nonneg _) hE ?_
  intro x hx hle
  obtain ⟨hxf, hx0⟩ := hfr x hx
  obtain ⟨a, ha, rfl⟩ := isFinite_iff.1 hxf
  simp only [F32.val] at hx0 hle ⊢
  obtain ⟨v, hv, e, v0, h⟩ := mul_close (ha := ha) (hb := ha) hx0 hx0 (_root_.le_trans hle (by norm_num))
  rw [e]
  refine ⟨rfl, v0, _root_.le_trans h ?_⟩
  have := mul_self_nonneg a
  norm_num
  linarith

theorem hfc_close {fr : List F32} {B : ℚ} (hfr : ∀ x ∈ fr, x.isFinite = true ∧ 0 ≤ x.val) (hn : fr.length ≤ 2 ^ 20)
    (hB : B ≤ 2 ^ 50) (hE : exactHfc fr ≤ B) (hx30 : ∀ x ∈ fr, x.val ≤ 2 ^ 30) :
    ∃ v hv, hfcFrom 0 fr = fin v hv ∧ 0 ≤ v ∧ |v - exactHfc fr| ≤ B * ((1 + fr.length) / 2 ^ 22) + 1 / 2 ^ 60 := by
  have hl : fr.zipIdx.length = fr.length := List.length_zipIdx
  rw [← hl]
  refine terms_close fr.zipIdx (fun p => F32.ofNat p.2 * p.1 * p.1) (fun p => (p.2 : ℚ) * (p.1.val * p.1.val)) hB (by rw [hl]; exact hn)
    (fun p _ => _root_.mul_nonneg (by positivity) (mul_self_nonneg _)) hE ?_
  rintro ⟨x, k⟩ hp hle
  have hm := List.mem_zipIdx hp
  have hxm : x ∈ fr := by
    rw [hm.2.2]; exact List.getElem_mem _
  have hk : k < 2 ^ 20 := by omega
  obtain ⟨hxf, hx0⟩ := hfr x hxm
  have hx30 := hx30 x hxm
  obtain ⟨a, ha, rfl⟩ := isFinite_iff.1 hxf
  simp only [F32.val] at hx0 hle hx30 ⊢
  obtain ⟨hkg, ek⟩ : ∃ h, F32.ofNat k = fin (k : ℚ) h := ⟨_, ofNat_exact (by omega)⟩
  rw [ek]
  have k0 : (0 : ℚ) ≤ k := by positivity
  have hkq : (k : ℚ) ≤ 2 ^ 20 := by exact_mod_cast hk.le
  have hka : (k : ℚ) * a ≤ 2 ^ 50 := by
    calc (k : ℚ) * a ≤ 2 ^ 20 * 2 ^ 30 := _root_.mul_le_mul hkq hx30 hx0 (by norm_num)
      _ = _ := by norm_num
  obtain ⟨v, hv, e, v0, h⟩ := mul_close (ha := hkg) (hb := ha) k0 hx0 (_root_.le_trans hka (by norm_num))
  rw [e]
  have hva : |v * a - k * (a * a)| ≤ k * (a * a) / 2 ^ 24 + 1 / 2 ^ 120 := by
    have e1 : v * a - k * (a * a) = (v - k * a) * a := by ring
    rw [e1, _root_.abs_mul, _root_.abs_of_nonneg hx0]
    have := _root_.mul_le_mul_of_nonneg_right h hx0
    have e2 : (k * a / 2 ^ 24 + 1 / 2 ^ 150) * a = k * (a * a) / 2 ^ 24 + a / 2 ^ 150 := by ring
    rw [e2] at this
    norm_num at this hx30 ⊢
    linarith
  have hva' := abs_le.1 hva
  have hg0 : 0 ≤ (k : ℚ) * (a * a) := _root_.mul_nonneg k0 (mul_self_nonneg a)
  generalize (k : ℚ) * (a * a) = G at *
  obtain ⟨w, hw, e2, w0, h2⟩ := mul_close (ha := hv) (hb := ha) v0 hx0 (by norm_num at hva' hle ⊢; linarith [hva'.2])
  rw [e2]
  refine ⟨rfl, w0, ?_⟩
  have h2' := abs_le.1 h2
  generalize v * a = V at *
  rw [abs_le]
  norm_num at hva' h2' ⊢
  constructor <;> linarith [hva'.1, hva'.2, h2'.1, h2'.2]

/-! ### the curves -/

theorem flux_value {f : List F32 → F32} {E : List F32 → ℚ} {spec : List (List F32)} {B M : ℚ} {n : ℕ} (hn : n ≤ 2 ^ 20)
    (hB : B ≤ 2 ^ 50) (hf : ∀ fr ∈ spec, ∃ v hv, f fr = fin v hv ∧ 0 ≤ v ∧ |v - E fr| ≤ B * ((1 + n) / 2 ^ 22) + 1 / 2 ^ 60)
    (hE0 : ∀ fr ∈ spec, 0 ≤ E fr) (hE : ∀ fr ∈ spec, E fr ≤ B)
    (hM : ∃ j, j + 1 < spec.length ∧ exactRise E spec j = M) (hle : ∀ i, i + 1 < spec.length → exactRise E spec i ≤ M)
    (hM1 : 1 / 10 ^ 8 ≤ M) (hM2 : B * ((n + 4) / 2 ^ 20) ≤ M) :
    ∀ i, i + 1 < spec.length → ∃ w hw, (peakNorm (rise (spec.map f))).getD i 0 = fin w hw ∧ 0 ≤ w ∧ w ≤ 1 ∧
      |w - exactRise E spec i / M| ≤ B / M * ((n + 4) / 2 ^ 20) := by
  have getmem : ∀ j, j < spec.length → (spec.getD j []) ∈ spec := by
    intro j hj
    rw [List.getD_eq_getElem?_getD, List.getElem?_eq_getElem hj]
    exact List.getElem_mem hj
  have hnq : (n : ℚ) ≤ 1048576 := by exact_mod_cast hn
  have hn0 : (0 : ℚ) ≤ n := by positivity
  have hMB : M ≤ B := by
    obtain ⟨j, hj, rfl⟩ := hM
    unfold exactRise
    have h1 := hE _ (getmem (j + 1) hj)
    have h2 := hE0 _ (getmem j (by omega))
    have h3 := hE0 _ (getmem (j + 1) hj)
    exact _root_.max_le (by linarith) (by linarith)
  have hMpos : 0 < M := _root_.lt_of_lt_of_le (by norm_num) hM1
  have hB0 : 0 < B := _root_.lt_of_lt_of_le hMpos hMB
  have hB8 : 1 / 10 ^ 8 ≤ B := _root_.le_trans hM1 hMB
  have hP0 : 0 ≤ B * n := _root_.mul_nonneg hB0.le hn0
  have hP1 : B * n ≤ B * 1048576 := _root_.mul_le_mul_of_nonneg_left hnq hB0.le
  have e1 : B * ((1 + (n : ℚ)) / 2 ^ 22) = (B + B * n) / 2 ^ 22 := by ring
  have e2 : B * (((n : ℚ) + 4) / 2 ^ 20) = (4 * B + B * n) / 2 ^ 20 := by ring
  rw [e1] at hf
  rw [e2] at hM2
  generalize B * (n : ℚ) = P at *
  intro i hi
  obtain ⟨w, hw, e, w0, w1, h⟩ := rise_curve (f := f) (E := E) (spec := spec) (B := B) (γ := (B + P) / 2 ^ 22 + 1 / 2 ^ 60) (M := M)
    (by positivity) (by norm_num at hB8 ⊢; linarith) hB (fun fr hfr => by
      obtain ⟨v, hv, e, _, h⟩ := hf fr hfr
      exact ⟨v, hv, e, h⟩) (fun fr hfr => ⟨hE0 fr hfr, hE fr hfr⟩) hM hle
    (by norm_num at hM1 hM2 hB8 ⊢; linarith) i hi
  refine ⟨w, hw, e, w0, w1, _root_.le_trans h ?_⟩
  have e3 : B / M * (((n : ℚ) + 4) / 2 ^ 20) = (B * (((n : ℚ) + 4) / 2 ^ 20)) / M := by ring
  rw [e3, e2, le_div_iff₀ hMpos, add_mul, div_mul_cancel₀ _ hMpos.ne']
  norm_num at hB8 hMB ⊢
  linarith

/-- **C111** (energy flux): each value of the curve is the rise of the energy from one frame to the next, 0 for a fall, as a share of the largest rise of the recording; to one part in
2^20 per bin of the loudest frame.  The magnitudes are finite and nonnegative, no frame has a greater energy
than `B`, and the largest rise `M` is not lost in rounding. -/
theorem C111_energy (spec : List (List F32)) (B M : ℚ) (hv : Valid spec) (h2 : 2 ≤ spec.length)
    (hn : (spec.headD []).length ≤ 2 ^ 20) (hx : ∀ fr ∈ spec, ∀ x ∈ fr, x.isFinite = true ∧ 0 ≤ x.val)
    (hB : B ≤ 2 ^ 50) (hE : ∀ fr ∈ spec, exactEnergy fr ≤ B)
    (hM : ∃ j, j + 1 < spec.length ∧ exactRise exactEnergy spec j = M)
    (hle : ∀ i, i + 1 < spec.length → exactRise exactEnergy spec i ≤ M)
    (hM1 : 1 / 10 ^ 8 ≤ M) (hM2 : B * (((spec.headD []).length + 4) / 2 ^ 20) ≤ M) :
    ∃ c, energyFlux spec = .ok c ∧ c.length = spec.length - 1 ∧ ∀ i, i + 1 < spec.length →
      ∃ w hw, c.getD i 0 = fin w hw ∧ 0 ≤ w ∧ w ≤ 1 ∧
        |w - exactRise exactEnergy spec i / M| ≤ B / M * (((spec.headD []).length + 4) / 2 ^ 20) := by
  have hlen : ∀ fr ∈ spec, fr.length = (spec.headD []).length := hv.2
  refine ⟨_, by unfold energyFlux; rw [if_neg (by omega), check_valid hv]; rfl, ?_, ?_⟩
  · rw [(peakNorm_spec (rise_nonneg _)).1, rise_length, List.length_map]
  · refine flux_value hn hB (fun fr hfr => ?_) (fun fr hfr => ?_) hE hM hle hM1 hM2
    · rw [← hlen fr hfr]
      exact energy_close (hx fr hfr) (by rw [hlen fr hfr]; exact hn) hB (hE fr hfr)
    · refine List.sum_nonneg (fun q hq => ?_)
      obtain ⟨x, _, rfl⟩ := List.mem_map.1 hq
      exact mul_self_nonneg _

/-- **C111** (high-frequency content): the same for the energy weighted by the bin number. -/
theorem C111_hfc (spec : List (List F32)) (sr : ℕ) (B M : ℚ) (hs : 0 < sr) (hv : Valid spec) (h2 : 2 ≤ spec.length)
    (hn : (spec.headD []).length ≤ 2 ^ 20) (hx : ∀ fr ∈ spec, ∀ x ∈ fr, x.isFinite = true ∧ 0 ≤ x.val)
    (hx30 : ∀ fr ∈ spec, ∀ x ∈ fr, x.val ≤ 2 ^ 30) (hB : B ≤ 2 ^ 50) (hE : ∀ fr ∈ spec, exactHfc fr ≤ B)
    (hM : ∃ j, j + 1 < spec.length ∧ exactRise exactHfc spec j = M)
    (hle : ∀ i, i + 1 < spec.length → exactRise exactHfc spec i ≤ M)
    (hM1 : 1 / 10 ^ 8 ≤ M) (hM2 : B * (((spec.headD []).length + 4) / 2 ^ 20) ≤ M) :
    ∃ c, hfc spec sr = .ok c ∧ c.length = spec.length - 1 ∧ ∀ i, i + 1 < spec.length →
      ∃ w hw, c.getD i 0 = fin w hw ∧ 0 ≤ w ∧ w ≤ 1 ∧
        |w - exactRise exactHfc spec i / M| ≤ B / M * (((spec.headD []).length + 4) / 2 ^ 20) := by
  have hne : spec ≠ [] := by rintro rfl; simp at h2
  have hlen : ∀ fr ∈ spec, fr.length = (spec.headD []).length := hv.2
  refine ⟨_, by unfold hfc; rw [if_neg hne, if_neg (by omega), if_neg (by omega), check_valid hv]; rfl, ?_, ?_⟩
  · rw [(peakNorm_spec (rise_nonneg _)).1, rise_length, List.length_map]
  · refine flux_value hn hB (fun fr hfr => ?_) (fun fr hfr => ?_) hE hM hle hM1 hM2
    · rw [← hlen fr hfr]
      exact hfc_close (hx fr hfr) (by rw [hlen fr hfr]; exact hn) hB (hE fr hfr) (hx30 fr hfr)
    · refine List.sum_nonneg (fun q hq => ?_)
      obtain ⟨x, _, rfl⟩ := List.mem_map.1 hq
      exact _root_.mul_nonneg (by positivity) (mul_self_nonneg _)

/-- non-vacuity: three frames of three bins; the energy rises by 7 and then by 15, the high-frequency content not at all and then by 40 -/
example : Valid [[1, 1, 1], [3, 1, 0], [0, 3, 4]] ∧
    (∀ fr ∈ ([[1, 1, 1], [3, 1, 0], [0, 3, 4]] : List (List F32)), exactEnergy fr ≤ 25 ∧ exactHfc fr ≤ 41) ∧
    [0, 1].map (exactRise exactEnergy [[1, 1, 1], [3, 1, 0], [0, 3, 4]]) = [7, 15] ∧
    [0, 1].map (exactRise exactHfc [[1, 1, 1], [3, 1, 0], [0, 3, 4]]) = [0, 40] := by
  unfold Valid; decide +kernel

end Verif.Props
