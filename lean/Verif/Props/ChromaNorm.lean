/-
L2 normalisation and sharpening of chroma vectors (C68).
-/
import Verif.Props.ChromaMap

namespace Verif.Props
open Verif F32 Chroma

/-- the common tail of `sharpen_chroma` and `l2_normalize_chroma` -/
def unitOrUniform (s : List F32) : List F32 :=
  if EPS < norm2 s then s.map (fun x => x / norm2 s)
  else List.replicate s.length (1 / F32.sqrt (F32.ofNat s.length))

theorem l2Normalize_eq {c : List F32} : l2Normalize c = unitOrUniform c := by
  unfold l2Normalize unitOrUniform
  by_cases h : c = []
  · subst h; decide +kernel
  · rw [if_neg h]

theorem sharpen_eq {M : Libm} {c : List F32} {p : F32} :
    sharpen M c p = unitOrUniform (c.map (fun x => M.powf x p)) := by
  unfold sharpen unitOrUniform
  by_cases h : c = []
  · subst h; simp
  · rw [if_neg h]
    dsimp only
    rw [List.map_const', List.length_map]

theorem length_unitOrUniform (s : List F32) : (unitOrUniform s).length = s.length := by
  unfold unitOrUniform; split_ifs <;> simp

theorem norm2_ones {n : ℕ} (h : n ≤ 2 ^ 24) : norm2 (List.replicate n 1) = F32.sqrt (F32.ofNat n) := by
  unfold norm2
  rw [List.map_replicate]
  have e : (1 * 1 : F32) = fin 1 grid_one := by decide +kernel
  rw [e, sum_replicate_exact (fun k hk => by rw [mul_one]; exact grid_nat (by omega)), mul_one]
  rfl

theorem mags_ones (n : ℕ) : Mags (List.replicate n 1) := by
  intro x hx
  rw [List.eq_of_mem_replicate hx]
  decide +kernel

theorem eps_lt_ones {n : ℕ} (h0 : 0 < n) (h : n ≤ 2 ^ 24) : EPS < norm2 (List.replicate n 1) := by
  have h1 : (1 : F32) ∈ List.replicate n 1 := List.mem_replicate.2 ⟨by omega, rfl⟩
  rcases le_norm2 (mags_ones n) h1 with h2 | h2
  · exact absurd h2 (by decide +kernel)
  · exact F32.lt_of_lt_of_le (by decide +kernel) h2

theorem ones_fin (n : ℕ) : (norm2 (List.replicate n 1)).isFinite = true := by
  apply norm_fin_of_le
  intro x hx
  rw [List.eq_of_mem_replicate hx]
  decide +kernel

theorem unitOrUniform_spec {s : List F32} (hne : s ≠ []) (hl : s.length ≤ 2 ^ 12)
    (h : ∀ x ∈ s, 0 ≤ x ∧ x ≤ rnd (pow2 50)) :
    (∀ y ∈ unitOrUniform s, 0 ≤ y ∧ y ≤ 1) ∧ |exactSq (unitOrUniform s) - 1| ≤ ((s.length : ℚ) + 6) / 2 ^ 22 ∧
    ∀ i j, (hi : i < s.length) → (hj : j < s.length) → s[i] ≤ s[j] →
      (unitOrUniform s).getD i 0 ≤ (unitOrUniform s).getD j 0 := by
  have hpos : 0 < s.length := List.length_pos_iff.2 hne
  have hmag : Mags s := fun y hy => ⟨(h y hy).1, isFinite_of_between (lo := 0) (hi := rnd (pow2 50))
    (by decide +kernel) (by decide +kernel) (h y hy).1 (h y hy).2⟩
  unfold unitOrUniform
  by_cases hn : EPS < norm2 s
  · rw [if_pos hn]
    have hp : 0 < norm2 s := F32.lt_trans (by decide +kernel) hn
    refine ⟨?_, unit_norm hmag hl hn (norm_fin_of_le h), ?_⟩
    · intro y hy
      obtain ⟨x, hx, rfl⟩ := List.mem_map.1 hy
      exact quot_unit hmag hn hx
    · intro i j hi hj hij
      have e : ∀ k (hk : k < s.length), (s.map (fun x => x / norm2 s)).getD k 0 = s[k] / norm2 s := by
        intro k hk
        rw [List.getD_eq_getElem?_getD, List.getElem?_eq_getElem (by simpa using hk), Option.getD_some, List.getElem_map]
      rw [e i hi, e j hj]
      exact F32.div_le_div_right hij hp (ne_nan_right (quot_unit hmag hn (List.getElem_mem hi)).1)
        (ne_nan_right (quot_unit hmag hn (List.getElem_mem hj)).1)
  · rw [if_neg hn]
    set n := s.length with hnl
    have h24 : n ≤ 2 ^ 24 := hl.trans (by norm_num)
    have h1n := eps_lt_ones hpos h24
    have e : List.replicate n (1 / F32.sqrt (F32.ofNat n)) =
        (List.replicate n (1 : F32)).map (fun x => x / norm2 (List.replicate n 1)) := by
      rw [List.map_replicate, norm2_ones h24]
    rw [e]
    have hq := fun x hx => quot_unit (mags_ones n) h1n (x := x) hx
    refine ⟨?_, ?_, ?_⟩
    · intro y hy
      obtain ⟨x, hx, rfl⟩ := List.mem_map.1 hy
      exact hq x hx
    · have := unit_norm (mags_ones n) (by simpa using hl) h1n (ones_fin n)
      rw [List.length_replicate] at this
      exact this
    · intro i j hi hj _
      have e : ∀ k (hk : k < n), ((List.replicate n (1 : F32)).map (fun x => x / norm2 (List.replicate n 1))).getD k 0
          = 1 / norm2 (List.replicate n 1) := by
        intro k hk
        rw [List.map_replicate, List.getD_eq_getElem?_getD, List.getElem?_eq_getElem (by simpa using hk), Option.getD_some,
          List.getElem_replicate]
      rw [e i hi, e j hj]
      exact F32.le_refl (ne_nan_right (hq 1 (List.mem_replicate.2 ⟨by omega, rfl⟩)).1)

/-- **C68**: neither function changes the number of entries. -/
theorem C68_length (M : Libm) (c : List F32) (power : F32) :
    (l2Normalize c).length = c.length ∧ (sharpen M c power).length = c.length := by
  rw [l2Normalize_eq, sharpen_eq, length_unitOrUniform, length_unitOrUniform, List.length_map]
  exact ⟨rfl, rfl⟩

example : l2Normalize [3, 4] = [3 / 5, 4 / 5] := by decide +kernel

/-- **C68 (partial): L2 normalisation.** For non-negative entries up to `2^50` (silence included) the result
lies in `[0, 1]`, has unit Euclidean length up to `(n + 6) / 2^22`, and the order of the entries is kept.
Missing: entries whose squares overflow (`C68_violated`). -/
theorem C68_normalize_partial (c : List F32) (hne : c ≠ []) (hl : c.length ≤ 2 ^ 12)
    (h : ∀ x ∈ c, 0 ≤ x ∧ x ≤ rnd (pow2 50)) :
    (∀ y ∈ l2Normalize c, 0 ≤ y ∧ y ≤ 1) ∧ |exactSq (l2Normalize c) - 1| ≤ ((c.length : ℚ) + 6) / 2 ^ 22 ∧
    ∀ i j, (hi : i < c.length) → (hj : j < c.length) → c[i] ≤ c[j] →
      (l2Normalize c).getD i 0 ≤ (l2Normalize c).getD j 0 := by
  rw [l2Normalize_eq]
  exact unitOrUniform_spec hne hl h

example : ([3, 4, 0] : List F32) ≠ [] ∧ ∀ x ∈ ([3, 4, 0] : List F32), 0 ≤ x ∧ x ≤ rnd (pow2 50) := by decide +kernel

/-- **C68 (partial): sharpening.** With a power function that is non-negative, at most `2^50` and monotone on
the entries, sharpening returns a vector in `[0, 1]` of unit length up to `(n + 6) / 2^22` that ranks the
pitch classes like its input. -/
theorem C68_sharpen_partial (M : Libm) (c : List F32) (power : F32) (hne : c ≠ []) (hl : c.length ≤ 2 ^ 12)
    (h : ∀ x ∈ c, 0 ≤ M.powf x power ∧ M.powf x power ≤ rnd (pow2 50))
    (hmono : ∀ x ∈ c, ∀ y ∈ c, x ≤ y → M.powf x power ≤ M.powf y power) :
    (∀ y ∈ sharpen M c power, 0 ≤ y ∧ y ≤ 1) ∧ |exactSq (sharpen M c power) - 1| ≤ ((c.length : ℚ) + 6) / 2 ^ 22 ∧
    ∀ i j, (hi : i < c.length) → (hj : j < c.length) → c[i] ≤ c[j] →
      (sharpen M c power).getD i 0 ≤ (sharpen M c power).getD j 0 := by
  rw [sharpen_eq]
  obtain ⟨a, b, d⟩ := unitOrUniform_spec (s := c.map (fun x => M.powf x power)) (by simpa using hne) (by simpa using hl)
    (by intro y hy; obtain ⟨x, hx, rfl⟩ := List.mem_map.1 hy; exact h x hx)
  rw [List.length_map] at b
  refine ⟨a, b, fun i j hi hj hij => d i j (by simpa using hi) (by simpa using hj) ?_⟩
  rw [List.getElem_map, List.getElem_map]
  exact hmono _ (List.getElem_mem hi) _ (List.getElem_mem hj) hij

/-- a library whose power function is squaring -/
def squareLibm : Libm := { Libm.demo with powf := fun x _ => x * x }

example : (∀ x ∈ ([0.5, 0.25, 0] : List F32), 0 ≤ squareLibm.powf x 2 ∧ squareLibm.powf x 2 ≤ rnd (pow2 50)) ∧
    (∀ x ∈ ([0.5, 0.25, 0] : List F32), ∀ y ∈ ([0.5, 0.25, 0] : List F32), x ≤ y → squareLibm.powf x 2 ≤ squareLibm.powf y 2) ∧
    0.97 < (sharpen squareLibm [0.5, 0.25, 0] 2).getD 0 0 := by decide +kernel

/-- **C68 is violated**: a non-negative finite vector whose squared norm overflows is normalised to the zero
vector. -/
theorem C68_violated (c : List F32) (h : ∀ x ∈ c, 0 ≤ x ∧ x.isFinite = true)
    (hov : F32.sum (c.map (fun x => x * x)) = inf false) : l2Normalize c = List.replicate c.length 0 := by
  have hn : norm2 c = inf false := by unfold norm2; rw [hov]; rfl
  rw [l2Normalize_eq]
  unfold unitOrUniform
  rw [if_pos (by rw [hn]; decide +kernel), hn]
  exact div_inf_zero h

example : (∀ x ∈ [rnd (pow2 64), 1], 0 ≤ x ∧ x.isFinite = true) ∧
    F32.sum ([rnd (pow2 64), 1].map (fun x => x * x)) = inf false := by decide +kernel

/-- **C68 is violated** (sharpening with power 1 is documented as "no change"): whatever the power, when the
power function maps 0 to 0 the zero vector, which is the chroma of a silent frame, becomes the uniform
vector. -/
theorem C68_violated_silent (M : Libm) (power : F32) (n : ℕ) (h : M.powf 0 power = 0) :
    sharpen M (List.replicate n 0) power = List.replicate n (1 / F32.sqrt (F32.ofNat n)) := by
  rw [sharpen_eq]
  unfold unitOrUniform
  rw [List.map_replicate, h, List.length_replicate]
  have : norm2 (List.replicate n 0) = 0 := by
    unfold norm2
    rw [List.map_replicate]
    have e : (0 * 0 : F32) = fin 0 grid_zero := by decide +kernel
    rw [e, sum_replicate_exact (fun k _ => by rw [mul_zero]; exact grid_zero), mul_zero]
    decide +kernel
  rw [this, if_neg (by decide +kernel)]

example : squareLibm.powf 0 1 = 0 ∧ sharpen squareLibm (List.replicate 4 0) 1 = [0.5, 0.5, 0.5, 0.5] := by
  decide +kernel

end Verif.Props
