/-
The spectral-flux onset detector and loudness (C120): src/features/onset/spectral_flux.rs.
-/
import Verif.Props.Attacks

namespace Verif.Props
open Verif Verif.Onset Verif.F32

/-- Specification: `y` is `c` times `x`, exactly. -/
def GainOf (c : ℚ) (x y : F32) : Prop := ∃ v hv hw, x = fin v hv ∧ y = fin (c * v) hw

/-- Specification: some bin of the frame exceeds 1e-10. -/
def AudibleFrame (fr : List F32) : Prop := ∃ x ∈ fr, (1e-10 : F32) < x

/-- Specification: the second frame is the first one at another loudness. -/
def SameShape (fr fr' : List F32) : Prop :=
  (∃ c : ℚ, 0 < c ∧ List.Forall₂ (GainOf c) fr fr') ∧ (AudibleFrame fr ↔ AudibleFrame fr')

theorem gain_max {c : ℚ} (hc : 0 < c) {a a' b b' : F32} (h1 : GainOf c a a') (h2 : GainOf c b b') :
    GainOf c (F32.max a b) (F32.max a' b') := by
  obtain ⟨v, hv, hw, rfl, rfl⟩ := h1
  obtain ⟨w, hv', hw', rfl, rfl⟩ := h2
  unfold F32.max
  simp only [F32.isNaN, Bool.false_eq_true, if_false]
  by_cases h : v < w
  · rw [if_pos (fin_lt_fin.2 h), if_pos (fin_lt_fin.2 (mul_lt_mul_of_pos_left h hc))]
    exact ⟨w, hv', hw', rfl, rfl⟩
  · rw [if_neg (fun h' => h (fin_lt_fin.1 h')), if_neg (fun h' => h (lt_of_mul_lt_mul_left (fin_lt_fin.1 h') (_root_.le_of_lt hc)))]
    exact ⟨v, hv, hw, rfl, rfl⟩

theorem gain_foldMax {c : ℚ} (hc : 0 < c) {l l' : List F32} (h : List.Forall₂ (GainOf c) l l') :
    ∀ {a a' : F32}, GainOf c a a' → GainOf c (F32.foldMax a l) (F32.foldMax a' l') := by
  induction h with
  | nil => intro a a' ha; exact ha
  | cons h1 _ ih => intro a a' ha; exact ih (gain_max hc ha h1)

theorem gain_zero (c : ℚ) : GainOf c 0 0 :=
  ⟨0, grid_zero, by rw [mul_zero]; exact grid_zero, zero_def, by rw [zero_def]; congr 1; rw [mul_zero]⟩

theorem foldMax_audibleFrame {l : List F32} (hn : ∀ x ∈ l, x ≠ nan) : EPS < F32.foldMax 0 l ↔ AudibleFrame l := by
  obtain ⟨m1, m2, m3, m4⟩ := foldMax_spec (l := l) zero_ne_nan
  constructor
  · intro h
    rcases m4 with e | e
    · rw [e] at h; exact absurd h (by decide +kernel)
    · exact ⟨_, e, h⟩
  · rintro ⟨x, hx, h⟩
    exact F32.lt_of_lt_of_le h (m3 x hx (hn x hx))

theorem gain_nonnan {c : ℚ} {l l' : List F32} (h : List.Forall₂ (GainOf c) l l') :
    (∀ x ∈ l, x ≠ nan) ∧ (∀ x ∈ l', x ≠ nan) := by
  induction h with
  | nil => simp
  | cons h1 _ ih =>
    obtain ⟨v, hv, hw, rfl, rfl⟩ := h1
    constructor <;> intro x hx <;> rw [List.mem_cons] at hx <;> rcases hx with rfl | hx
    · simp
    · exact ih.1 x hx
    · simp
    · exact ih.2 x hx

/-- the normalised frame does not depend on the loudness -/
theorem norm_shape {fr fr' : List F32} (h : SameShape fr fr') : normFrame fr = normFrame fr' := by
  obtain ⟨⟨c, hc, hg⟩, ha⟩ := h
  obtain ⟨n1, n2⟩ := gain_nonnan hg
  rw [← foldMax_audibleFrame n1, ← foldMax_audibleFrame n2] at ha
  unfold normFrame
  dsimp only
  by_cases hE : EPS < F32.foldMax 0 fr
  · rw [if_pos hE, if_pos (ha.1 hE)]
    obtain ⟨m, hm, hm', e, e'⟩ := gain_foldMax hc hg (gain_zero c)
    have hm0 : 0 < m := by
      have h1 : (0 : F32) < F32.foldMax 0 fr := F32.lt_trans (by decide +kernel) hE
      rw [e, zero_def] at h1
      exact fin_lt_fin.1 h1
    rw [e, e']
    clear n1 n2 ha hE e e'
    induction hg with
    | nil => rfl
    | cons h1 _ ih =>
      obtain ⟨v, hv, hw, rfl, rfl⟩ := h1
      rw [List.map_cons, List.map_cons, ih, div_fin (_root_.ne_of_gt hm0), div_fin (_root_.ne_of_gt (_root_.mul_pos hc hm0)),
        mul_div_mul_left _ _ (_root_.ne_of_gt hc)]
  · rw [if_neg hE, if_neg (fun h => hE (ha.2 h))]
    clear n1 n2 ha hE
    induction hg with
    | nil => rfl
    | cons _ _ ih => rw [List.map_cons, List.map_cons, ih]

theorem shape_lengths {mags mags' : List (List F32)} (h : List.Forall₂ SameShape mags mags') :
    mags.length = mags'.length ∧ (∀ n, (∀ fr ∈ mags, fr.length = n) ↔ (∀ fr ∈ mags', fr.length = n)) ∧
      mags.map normFrame = mags'.map normFrame := by
  induction h with
  | nil => simp
  | cons h1 _ ih =>
    refine ⟨by rw [List.length_cons, List.length_cons, ih.1], fun n => ?_, by rw [List.map_cons, List.map_cons, ih.2.2, norm_shape h1]⟩
    obtain ⟨⟨c, _, hg⟩, _⟩ := h1
    simp only [List.mem_cons, forall_eq_or_imp]
    rw [hg.length_eq, ih.2.1 n]

/-- **C120 (partial): loudness plays no part.** Playing every frame at its own loudness, as long as audible
frames stay audible and silent ones silent, changes nothing in the onsets found; in particular they do
not depend on the level of the recording. -/
theorem C120_level_partial {mags mags' : List (List F32)} (p : F32) (h : List.Forall₂ SameShape mags mags') :
    spectralFluxOnsets mags p = spectralFluxOnsets mags' p := by
  obtain ⟨h1, h2, h3⟩ := shape_lengths h
  have e0 : mags = [] ↔ mags' = [] := by rw [← List.length_eq_zero_iff, ← List.length_eq_zero_iff, h1]
  by_cases h0 : mags = []
  · rw [h0, e0.1 h0]
  · have h0' : mags' ≠ [] := fun h => h0 (e0.2 h)
    have hr : Rect mags ↔ Rect mags' := by
      unfold Rect
      constructor <;> rintro ⟨n, hn, hh⟩
      · exact ⟨n, hn, (h2 n).1 hh⟩
      · exact ⟨n, hn, (h2 n).2 hh⟩
    have hfl : spectralFlux mags = spectralFlux mags' := by
      unfold spectralFlux
      dsimp only
      rw [h3]
    unfold spectralFluxOnsets
    rw [if_neg h0, if_neg h0', hfl, h1]
    cases f1 : framesOk mags p with
    | none => rw [(framesOk_none h0').2 ⟨((framesOk_none h0).1 f1).1, hr.1 ((framesOk_none h0).1 f1).2⟩]
    | some e =>
      cases f2 : framesOk mags' p with
      | none =>
        have := (framesOk_none h0).2 ⟨((framesOk_none h0').1 f2).1, hr.2 ((framesOk_none h0').1 f2).2⟩
        rw [f1] at this; cases this
      | some e' => rw [framesOk_some f1, framesOk_some f2]

theorem riseNorm_self (l : List F32) :
    F32.sqrt (F32.sum ((l.zip l).map (fun p => F32.max (p.2 - p.1) 0 * F32.max (p.2 - p.1) 0))) = 0 := by
  rw [sum_zeros, F32.sqrt_zero]
  intro y hy
  obtain ⟨q, hq, rfl⟩ := List.mem_map.1 hy
  have hqq : q.1 = q.2 := by
    obtain ⟨i, hi⟩ := List.getElem?_of_mem hq
    rw [List.getElem?_zip_eq_some] at hi
    exact Option.some.inj (hi.1.symm.trans hi.2)
  have : F32.max (q.2 - q.1) 0 = 0 := by
    rw [hqq]
    by_cases hn : q.2 = nan
    · rw [hn]; decide +kernel
    · exact rectified_zero (F32.le_refl hn)
  rw [this]; decide +kernel

/-- **C120 is violated.** A sound whose frames differ in loudness only - however suddenly it gets louder -
has no onset for the spectral-flux detector, whatever the percentile. -/
theorem C120_violated {mags : List (List F32)} {l : List F32} {p : F32} (h0 : mags ≠ []) (hl : l ≠ [])
    (h : ∀ fr ∈ mags, SameShape l fr) (hp : 0 ≤ p ∧ p ≤ 1) : spectralFluxOnsets mags p = .ok [] := by
  have hrect : Rect mags := ⟨l.length, List.length_pos_iff.2 hl, fun fr hfr => by
    obtain ⟨⟨c, _, hg⟩, _⟩ := h fr hfr
    exact hg.length_eq.symm⟩
  unfold spectralFluxOnsets
  rw [if_neg h0, (framesOk_none h0).2 ⟨hp, hrect⟩]
  dsimp only
  split_ifs with h2 hf
  · rfl
  · rfl
  · have hz : ∀ x ∈ spectralFlux mags, x = 0 := by
      intro x hx
      unfold spectralFlux at hx
      dsimp only at hx
      obtain ⟨i, hi, rfl⟩ := List.mem_map.1 hx
      rw [List.mem_range, List.length_map] at hi
      have hg : ∀ j, j < mags.length → (mags.map normFrame).getD j [] = normFrame l := by
        intro j hj
        rw [List.getD_eq_getElem?_getD, List.getElem?_map, List.getElem?_eq_getElem hj, Option.map_some, Option.getD_some]
        exact (norm_shape (h _ (List.getElem_mem hj))).symm
      rw [hg i (by omega), hg (i + 1) (by omega)]
      exact riseNorm_self _
    obtain ⟨out, thr, e, hq, hk⟩ := pickFrames_spec (p := p) (n := mags.length) hf (length_spectralFlux mags)
      (fun x hx => by rw [hz x hx]; exact zero_ne_nan)
    rw [e]
    congr 1
    rw [List.eq_nil_iff_forall_not_mem]
    intro k hk'
    obtain ⟨_, _, x, hx, hlt, _⟩ := (hk.2.2 k).1 hk'
    rw [hz _ hq.1, hz x (List.mem_of_getElem? hx)] at hlt
    exact F32.lt_irrefl _ hlt

theorem gain_lit {c : ℚ} {x y : F32} (v : ℚ) (hx : x = rnd v) (hy : y = rnd (c * v)) (g : OnGrid v ∧ |v| < pow2 128)
    (g' : OnGrid (c * v) ∧ |c * v| < pow2 128) : GainOf c x y :=
  ⟨v, g, g', by rw [hx]; exact rnd_val g, by rw [hy]; exact rnd_val g'⟩

theorem shape_demo (c : ℚ) (hc : 0 < c) (a b : F32) (ha : a = rnd (c * 1)) (hb : b = rnd (c * 2))
    (g : OnGrid (c * 1) ∧ |c * 1| < pow2 128) (g' : OnGrid (c * 2) ∧ |c * 2| < pow2 128) (hbig : (1e-10 : F32) < b) :
    SameShape [1, 2] [a, b] := by
  refine ⟨⟨c, hc, .cons (gain_lit 1 (by decide +kernel) ha (by decide +kernel) g)
    (.cons (gain_lit 2 (by decide +kernel) hb (by decide +kernel) g') .nil)⟩, ?_⟩
  exact ⟨fun _ => ⟨b, by simp, hbig⟩, fun _ => ⟨2, by simp, by decide +kernel⟩⟩

/-- non-vacuity: a note a thousand times louder from the third frame on -/
example : (∀ fr ∈ ([[1, 2], [1, 2], [1024, 2048], [1024, 2048], [512, 1024]] : List (List F32)), SameShape [1, 2] fr) ∧
    spectralFluxOnsets [[1, 2], [1, 2], [1024, 2048], [1024, 2048], [512, 1024]] 0.5 = .ok [] ∧
    hfcOnsets [[1, 2], [1, 2], [1024, 2048], [1024, 2048], [512, 1024]] 44100 0.5 = .ok [2] := by
  have h1 : SameShape [1, 2] [1, 2] := shape_demo 1 (by norm_num) 1 2 (by decide +kernel) (by decide +kernel) (by decide +kernel) (by decide +kernel) (by decide +kernel)
  have h2 : SameShape [1, 2] [1024, 2048] := shape_demo 1024 (by norm_num) _ _ (by decide +kernel) (by decide +kernel) (by decide +kernel) (by decide +kernel) (by decide +kernel)
  have h3 : SameShape [1, 2] [512, 1024] := shape_demo 512 (by norm_num) _ _ (by decide +kernel) (by decide +kernel) (by decide +kernel) (by decide +kernel) (by decide +kernel)
  refine ⟨?_, by decide +kernel, by decide +kernel⟩
  intro fr hfr
  simp only [List.mem_cons, List.not_mem_nil, or_false] at hfr
  rcases hfr with rfl | rfl | rfl | rfl | rfl <;> assumption

example : ∃ mags mags' : List (List F32), List.Forall₂ SameShape mags mags' ∧ mags ≠ mags' ∧
    spectralFluxOnsets mags 0.5 = spectralFluxOnsets mags' 0.5 := by
  have h2 : SameShape [1, 2] [1024, 2048] := shape_demo 1024 (by norm_num) _ _ (by decide +kernel) (by decide +kernel) (by decide +kernel) (by decide +kernel) (by decide +kernel)
  exact ⟨[[1, 2]], [[1024, 2048]], .cons h2 .nil, by decide +kernel, C120_level_partial _ (.cons h2 .nil)⟩
