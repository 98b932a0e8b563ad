/-
C48: framing of the short-time Fourier transform (src/features/chroma/extractor.rs, `compute_stft`).
-/
import Verif.Model.Chroma
import Verif.F32.More
import Verif.F32.Bounds

namespace Verif.Props
open Verif Verif.Chroma F32

theorem length_hann (M : Libm) (frame : ℕ) : (hann M frame).length = frame := by simp [hann]

/-- what a row is, as a function of the samples it covers -/
def rowFn (M : Libm) (fft : List F32 → List (F32 × F32)) (frame : ℕ) (w : List F32) : List F32 :=
  ((fft (List.zipWith (fun s w => s * w) w (hann M frame))).take (frame / 2 + 1)).map mag

theorem stftRow_ok {M : Libm} {fft : List F32 → List (F32 × F32)} {samples : List F32} {frame start : ℕ}
    (hf : ∀ l, (fft l).length = l.length) (h0 : 0 < frame) (h : start + frame ≤ samples.length) :
    stftRow M fft samples frame start = .ok (rowFn M fft frame ((samples.drop start).take frame)) ∧
      (rowFn M fft frame ((samples.drop start).take frame)).length = frame / 2 + 1 := by
  have hl : (fft (List.zipWith (fun s w => s * w) ((samples.drop start).take frame) (hann M frame))).length = frame := by
    rw [hf, List.length_zipWith, length_hann, List.length_take, List.length_drop]; omega
  constructor
  · unfold stftRow
    rw [slice_ok (by omega) h]
    simp only [R.ok_bind, Nat.add_sub_cancel_left]
    rw [slice_ok (by omega) (by rw [hl]; omega)]
    rfl
  · unfold rowFn
    rw [List.length_map, List.length_take, hl]; omega

theorem stftRows_ok {M : Libm} {fft : List F32 → List (F32 × F32)} {samples : List F32} {frame hop : ℕ}
    (hf : ∀ l, (fft l).length = l.length) (h0 : 0 < frame) : ∀ n k, (n = 0 ∨ (k + n - 1) * hop + frame ≤ samples.length) →
    stftRows M fft samples frame hop n k =
      .ok ((List.range' k n).map (fun t => rowFn M fft frame ((samples.drop (t * hop)).take frame))) := by
  intro n
  induction n with
  | zero => intro k _; rfl
  | succ n ih =>
    intro k h
    have h1 : (k + n) * hop + frame ≤ samples.length := by
      rcases h with h | h
      · omega
      · have : k + (n + 1) - 1 = k + n := by omega
        rwa [this] at h
    have hk : k * hop + frame ≤ samples.length := by
      have : k * hop ≤ (k + n) * hop := Nat.mul_le_mul_right _ (by omega)
      omega
    unfold stftRows
    rw [if_neg (by omega), (stftRow_ok hf h0 hk).1]
    simp only [R.ok_bind]
    rw [ih (k + 1) (by
      rcases Nat.eq_zero_or_pos n with rfl | hn
      · left; rfl
      · right
        have : k + 1 + n - 1 = k + n := by omega
        rw [this]; exact h1)]
    rfl

/-- **C48.** For non-zero frame and hop sizes, `compute_stft` returns exactly one row for every window
`[t·hop, t·hop + frame)` that fits into the samples, each with `frame/2 + 1` magnitudes, and each row is
a fixed function (the same for all signals, positions and hops) of the samples in its window.  This holds
for every transform that keeps the length of its input. -/
theorem C48_framing (M : Libm) (fft : List F32 → List (F32 × F32)) (hf : ∀ l, (fft l).length = l.length)
    (frame : ℕ) (h0 : 0 < frame) : ∃ row : List F32 → List F32, ∀ (samples : List F32) (hop : ℕ), 0 < hop →
      ∃ rows, computeStft M fft samples frame hop = .ok rows ∧
        rows.length = (if samples.length < frame then 0 else (samples.length - frame) / hop + 1) ∧
        (∀ t, t < rows.length ↔ t * hop + frame ≤ samples.length) ∧
        ∀ t < rows.length, rows[t]? = some (row ((samples.drop (t * hop)).take frame)) ∧
          (rows.getD t []).length = frame / 2 + 1 := by
  refine ⟨rowFn M fft frame, fun samples hop hh => ?_⟩
  unfold computeStft
  by_cases hs : samples.length < frame
  · refine ⟨[], by rw [if_pos hs], by rw [if_pos hs]; rfl, ?_, by simp⟩
    intro t
    simp only [List.length_nil, Nat.not_lt_zero, false_iff]
    omega
  · rw [if_neg hs, if_neg (by omega)]
    have hq : ((samples.length - frame) / hop) * hop + frame ≤ samples.length := by
      have := Nat.div_mul_le_self (samples.length - frame) hop
      omega
    refine ⟨_, stftRows_ok hf h0 _ _ (Or.inr ?_), ?_, ?_, ?_⟩
    · have : 0 + ((samples.length - frame) / hop + 1) - 1 = (samples.length - frame) / hop := by simp
      rw [this]; exact hq
    · rw [if_neg hs]; simp
    · intro t
      simp only [List.length_map, List.length_range']
      rw [Nat.lt_succ_iff, Nat.le_div_iff_mul_le hh]
      omega
    · intro t ht
      simp only [List.length_map, List.length_range'] at ht
      have hfit : t * hop + frame ≤ samples.length := by
        have : t * hop ≤ ((samples.length - frame) / hop) * hop := Nat.mul_le_mul_right _ (by omega)
        omega
      have he : ((List.range' 0 ((samples.length - frame) / hop + 1)).map
          (fun t => rowFn M fft frame ((samples.drop (t * hop)).take frame)))[t]? =
          some (rowFn M fft frame ((samples.drop (t * hop)).take frame)) := by
        simp [ht]
      refine ⟨he, ?_⟩
      rw [List.getD_eq_getElem?_getD, he, Option.getD_some]
      exact (stftRow_ok (M := M) hf h0 hfit).2

theorem sq_nonneg' {x : F32} (h : x ≠ nan) : 0 ≤ x * x := by
  rcases x with _ | s | ⟨v, hv⟩
  · exact absurd rfl h
  · cases s <;> decide +kernel
  · rw [mul_fin, zero_def]
    exact fin_le_rnd (mul_self_nonneg v)

theorem mag_nonneg {z : F32 × F32} (h1 : z.1 ≠ nan) (h2 : z.2 ≠ nan) : 0 ≤ mag z :=
  sqrt_nonneg (F32.add_nonneg (sq_nonneg' h1) (sq_nonneg' h2))

/-- **C48 (partial).** Magnitudes are non-negative when the transforms of the windows the signal is cut
into contain no NaN.  Missing: the unconditional claim, refuted by `C48_violated`. -/
theorem C48_nonneg_partial (M : Libm) (fft : List F32 → List (F32 × F32)) (hf : ∀ l, (fft l).length = l.length)
    (frame : ℕ) (h0 : 0 < frame) (samples : List F32) (hop : ℕ) (hh : 0 < hop)
    (hn : ∀ t, t * hop + frame ≤ samples.length →
      ∀ z ∈ fft (List.zipWith (fun s w => s * w) ((samples.drop (t * hop)).take frame) (hann M frame)),
      z.1 ≠ nan ∧ z.2 ≠ nan) :
    ∃ rows, computeStft M fft samples frame hop = .ok rows ∧ ∀ r ∈ rows, ∀ x ∈ r, 0 ≤ x := by
  unfold computeStft
  by_cases hs : samples.length < frame
  · exact ⟨[], by rw [if_pos hs], by simp⟩
  · rw [if_neg hs, if_neg (by omega)]
    have hq : ((samples.length - frame) / hop) * hop + frame ≤ samples.length := by
      have := Nat.div_mul_le_self (samples.length - frame) hop
      omega
    refine ⟨_, stftRows_ok hf h0 _ _ (Or.inr ?_), ?_⟩
    · have : 0 + ((samples.length - frame) / hop + 1) - 1 = (samples.length - frame) / hop := by simp
      rw [this]; exact hq
    · intro r hr x hx
      rw [List.mem_map] at hr
      obtain ⟨t, ht, rfl⟩ := hr
      rw [List.mem_range'_1] at ht
      have hfit : t * hop + frame ≤ samples.length := by
        have : t * hop ≤ ((samples.length - frame) / hop) * hop := Nat.mul_le_mul_right _ (by omega)
        omega
      unfold rowFn at hx
      rw [List.mem_map] at hx
      obtain ⟨z, hz, rfl⟩ := hx
      have := hn t hfit z (List.mem_of_mem_take hz)
      exact mag_nonneg this.1 this.2

/-- a stand-in transform for the examples: keeps the samples as real parts -/
def demoFft (l : List F32) : List (F32 × F32) := l.map (fun x => (x, 0))

/-- five samples, frames of two, hop two: two rows of two magnitudes -/
example : (∀ l, (demoFft l).length = l.length) ∧
    computeStft { Libm.demo with cos := fun _ => 0.5 } demoFft [1, -2, 3, -4, 5] 2 2 = .ok [[0.25, 0.5], [0.75, 1]] := by
  constructor
  · intro l; simp [demoFft]
  · decide +kernel

/-- the hypothesis of `C48_nonneg_partial` on the same signal -/
example : ∀ t, t * 2 + 2 ≤ [1, -2, 3, -4, (5 : F32)].length → ∀ z ∈ demoFft (List.zipWith (fun s w => s * w)
    (([1, -2, 3, -4, (5 : F32)].drop (t * 2)).take 2) (hann { Libm.demo with cos := fun _ => 0.5 } 2)),
    z.1 ≠ nan ∧ z.2 ≠ nan := by
  intro t ht
  have : t = 0 ∨ t = 1 := by simp at ht; omega
  rcases this with rfl | rfl <;> decide +kernel

/-- **C48, violated for `frame = 1`.** The Hann window divides by `frame - 1 = 0`: whatever the signal,
every magnitude is NaN (for any transform whose length-one case is the identity, and a cosine that passes
NaN through). -/
theorem C48_violated (M : Libm) (fft : List F32 → List (F32 × F32)) (hf : ∀ x, fft [x] = [(x, 0)])
    (hc : M.cos nan = nan) (samples : List F32) (h1 : samples ≠ []) (hop : ℕ) (hh : 0 < hop) :
    ∃ rows, computeStft M fft samples 1 hop = .ok rows ∧ rows ≠ [] ∧ ∀ r ∈ rows, r = [nan] := by
  have hw : hann M 1 = [nan] := by
    have : (2 * PI * F32.ofNat 0 / F32.ofNat (1 - 1) : F32) = nan := by decide +kernel
    unfold hann
    rw [List.range_one, List.map_singleton, this, hc]
    decide +kernel
  have row : ∀ start, start < samples.length → stftRow M fft samples 1 start = .ok [nan] := by
    intro start hs
    unfold stftRow
    rw [slice_ok (by omega) (by omega)]
    simp only [R.ok_bind, Nat.add_sub_cancel_left]
    have : (samples.drop start).take 1 = [samples[start]] := by
      rw [List.take_one_drop_eq_of_lt_length hs]; rfl
    rw [this, hw]
    show (slice (fft [samples[start] * nan]) 0 (1 / 2 + 1) >>= fun b => pure (b.map mag)) = _
    have hn : samples[start] * nan = nan := by
      rcases samples[start] with _ | _ | _ <;> rfl
    rw [hn, hf]
    decide +kernel
  have rows : ∀ n k, (n = 0 ∨ (k + n - 1) * hop < samples.length) →
      stftRows M fft samples 1 hop n k = .ok (List.replicate n [nan]) := by
    intro n
    induction n with
    | zero => intro k _; rfl
    | succ n ih =>
      intro k h
      have h1 : (k + n) * hop < samples.length := by
        rcases h with h | h
        · omega
        · have : k + (n + 1) - 1 = k + n := by omega
          rwa [this] at h
      have hk : k * hop < samples.length := by
        have : k * hop ≤ (k + n) * hop := Nat.mul_le_mul_right _ (by omega)
        omega
      unfold stftRows
      rw [if_neg (by omega), row _ hk]
      simp only [R.ok_bind]
      rw [ih (k + 1) (by
        rcases Nat.eq_zero_or_pos n with rfl | hn
        · left; rfl
        · right
          have : k + 1 + n - 1 = k + n := by omega
          rw [this]; exact h1)]
      rfl
  have hpos := List.length_pos_iff.2 h1
  refine ⟨List.replicate ((samples.length - 1) / hop + 1) [nan], ?_, by simp, ?_⟩
  · unfold computeStft
    rw [if_neg (by omega), if_neg (by omega)]
    apply rows
    right
    have := Nat.div_mul_le_self (samples.length - 1) hop
    have e : 0 + ((samples.length - 1) / hop + 1) - 1 = (samples.length - 1) / hop := by simp
    rw [e]; omega
  · intro r hr; exact List.eq_of_mem_replicate hr

example : computeStft { Libm.demo with cos := fun x => x } demoFft [0.5, 0.25] 1 1 = .ok [[nan], [nan]] := by
  decide +kernel

end Verif.Props
