/-
Property theorems C146: sharpening and the contrast of a chroma vector (src/features/chroma/normalization.rs).
-/
import Verif.Props.ChromaNorm
import Verif.Props.TempoFit

namespace Verif.Props
open Verif F32 Chroma

/-- Specification: on the entries of `c`, `powf(x, p)` is `g x` to within one part in a million. -/
def PowerIs (M : Libm) (p : F32) (g : ℚ → ℚ) (c : List F32) : Prop :=
  ∀ x ∈ c, (M.powf x p).isFinite = true ∧ 0 ≤ (M.powf x p).val ∧ |(M.powf x p).val - g x.val| ≤ g x.val / 2 ^ 20

/-- **C146 (partial)**: sharpening turns the ratio of two pitch classes into the ratio of their powers, to within one part in 131072; so
with any power that grows faster than proportionally the ratio does not fall.  The entries are at most one, and some power is at least
`2^-30`.  Missing: vectors whose powers are all smaller (`C146_violated`). -/
theorem C146_contrast_partial (M : Libm) (p : F32) (g : ℚ → ℚ) (c : List F32) (hM : PowerIs M p g c) (hl : c.length ≤ 2 ^ 12)
    (g1 : ∀ x ∈ c, g x.val ≤ 1) (gbig : ∃ x ∈ c, 1 / 2 ^ 30 ≤ g x.val) (i j : ℕ) (hi : i < c.length) (hj : j < c.length)
    (gi : 1 / 2 ^ 40 ≤ g c[i].val) (gj : 1 / 2 ^ 40 ≤ g c[j].val) :
    (1 - 1 / 2 ^ 17) * (((sharpen M c p).getD i 0).val * g c[j].val) ≤ ((sharpen M c p).getD j 0).val * g c[i].val ∧
    (0 ≤ c[i].val → g c[i].val * c[j].val ≤ g c[j].val * c[i].val →
      (1 - 1 / 2 ^ 17) * (((sharpen M c p).getD i 0).val * c[j].val) ≤ ((sharpen M c p).getD j 0).val * c[i].val) := by
  have e50 : ∃ h, rnd (pow2 50) = fin (pow2 50) h := ⟨by decide +kernel, by decide +kernel⟩
  obtain ⟨g50, e50⟩ := e50
  have hb : ∀ y ∈ c.map (fun x => M.powf x p), ∃ v hv, y = fin v hv ∧ 0 ≤ v ∧ v ≤ 2 := by
    intro y hy
    obtain ⟨x, hx, rfl⟩ := List.mem_map.1 hy
    obtain ⟨f, f0, fe⟩ := hM x hx
    obtain ⟨v, hv, ev⟩ := isFinite_iff.1 f
    have := g1 x hx
    rw [ev] at f0 fe ⊢
    refine ⟨v, hv, rfl, f0, ?_⟩
    have := (abs_le.1 fe).2
    change v - _ ≤ _ at this
    norm_num at this ⊢; linarith
  have hs : ∀ y ∈ c.map (fun x => M.powf x p), 0 ≤ y ∧ y ≤ rnd (pow2 50) := by
    intro y hy
    obtain ⟨v, hv, rfl, a, b⟩ := hb y hy
    rw [e50, zero_def, fin_le_fin, fin_le_fin, pow2_eq]
    exact ⟨a, _root_.le_trans b (by norm_num)⟩
  have hmag : Mags (c.map (fun x => M.powf x p)) := fun y hy => ⟨(hs y hy).1, by obtain ⟨v, hv, rfl, _⟩ := hb y hy; rfl⟩
  have hn : EPS < norm2 (c.map (fun x => M.powf x p)) := by
    obtain ⟨x, hx, hg⟩ := gbig
    have hmem : M.powf x p ∈ c.map (fun x => M.powf x p) := List.mem_map_of_mem hx
    obtain ⟨v, hv, ev, a, b⟩ := hb _ hmem
    have fe := (abs_le.1 (hM x hx).2.2).1
    rw [ev] at fe
    have fe' : -(g x.val / 2 ^ 20) ≤ v - g x.val := fe
    have hv31 : 1 / 2 ^ 31 ≤ v := by norm_num at fe' hg ⊢; linarith
    obtain ⟨t, ht, et, t1⟩ : ∃ t ht, EPS = fin t ht ∧ t < 1 / 2 ^ 31 := ⟨EPS.val, by decide +kernel, by decide +kernel, by decide +kernel⟩
    obtain ⟨u, hu, eu, u1⟩ : ∃ t ht, rnd (pow2 (-60)) = fin t ht ∧ t < 1 / 2 ^ 31 :=
      ⟨(rnd (pow2 (-60))).val, by decide +kernel, by decide +kernel, by decide +kernel⟩
    rcases le_norm2 hmag hmem with h1 | h1
    · rw [ev, eu, fin_lt_fin] at h1; linarith
    · refine F32.lt_of_lt_of_le ?_ h1
      rw [ev, et, fin_lt_fin]; linarith
  obtain ⟨N, hN, eN, Nlo, S, hT, hST, hNS⟩ := norm2_fin hmag (by simpa using hl) hn (norm_fin_of_le hs)
  have hout : ∀ k (hk : k < c.length), (sharpen M c p).getD k 0 = M.powf c[k] p / fin N hN := by
    intro k hk
    rw [sharpen_eq]
    unfold unitOrUniform
    rw [if_pos hn, eN, List.getD_eq_getElem?_getD, List.getElem?_eq_getElem (by simpa using hk), Option.getD_some]
    simp
  have N0 : 0 < N := _root_.lt_trans (by positivity) Nlo
  have hNhi : N ≤ 2 ^ 10 := by
    have hsq : sqSum (c.map (fun x => M.powf x p)) ≤ 2 ^ 14 := by
      have h1 := sum_map_le (c.map (fun x => M.powf x p)) (fun x => x.val * x.val) 4 (fun y hy => by
        obtain ⟨v, hv, rfl, a, b⟩ := hb y hy
        change v * v ≤ 4
        nlinarith)
      have h2 : ((c.map (fun x => M.powf x p)).length : ℚ) ≤ 2 ^ 12 := by rw [List.length_map]; exact_mod_cast hl
      exact _root_.le_trans h1 (by nlinarith)
    have hlq : ((c.map (fun x => M.powf x p)).length : ℚ) ≤ 2 ^ 12 := by rw [List.length_map]; exact_mod_cast hl
    generalize ((c.map (fun x => M.powf x p)).length : ℚ) = n at *
    generalize sqSum (c.map (fun x => M.powf x p)) = T at *
    have h1 := (abs_le.1 hST).2
    have h2 := (abs_le.1 hNS).2
    have h3 : T * ((n + 2) / 2 ^ 23) ≤ T * 1 := _root_.mul_le_mul_of_nonneg_left (by norm_num at hlq ⊢; linarith) hT.le
    norm_num at h1 h2 h3 hsq ⊢
    nlinarith
  have key : ∀ k (hk : k < c.length), 1 / 2 ^ 40 ≤ g c[k].val →
      |((sharpen M c p).getD k 0).val - g c[k].val / N| ≤ g c[k].val / N * (3 / 2 ^ 20) := by
    intro k hk hg
    obtain ⟨v, hv, ev, a, b⟩ := hb (M.powf c[k] p) (List.mem_map_of_mem (List.getElem_mem hk))
    have fe := abs_le.1 (hM c[k] (List.getElem_mem hk)).2.2
    rw [hout k hk]
    rw [ev] at fe ⊢
    have fe1 : -(g c[k].val / 2 ^ 20) ≤ v - g c[k].val := fe.1
    have fe2 : v - g c[k].val ≤ g c[k].val / 2 ^ 20 := fe.2
    rw [div_fin N0.ne']
    have hvN : |v / N| ≤ 2 ^ 60 := by
      rw [_root_.abs_of_nonneg (_root_.div_nonneg a N0.le), div_le_iff₀ N0]
      norm_num at Nlo ⊢; linarith
    obtain ⟨hq, eq⟩ := fin_of_le hvN
    rw [eq]
    have b3 := err_pow (v / N)
    rw [_root_.abs_of_nonneg (_root_.div_nonneg a N0.le)] at b3
    have b3' := abs_le.1 b3
    change |rndQ (v / N) - _| ≤ _
    have q1 : v / N ≤ g c[k].val / N + g c[k].val / N * (1 / 2 ^ 20) := by
      have : g c[k].val / N + g c[k].val / N * (1 / 2 ^ 20) = (g c[k].val + g c[k].val / 2 ^ 20) / N := by ring
      rw [this]; exact div_le_div_of_nonneg_right (by linarith) N0.le
    have q2 : g c[k].val / N - g c[k].val / N * (1 / 2 ^ 20) ≤ v / N := by
      have : g c[k].val / N - g c[k].val / N * (1 / 2 ^ 20) = (g c[k].val - g c[k].val / 2 ^ 20) / N := by ring
      rw [this]; exact div_le_div_of_nonneg_right (by linarith) N0.le
    have q3 : 1 / 2 ^ 50 ≤ g c[k].val / N := by
      rw [le_div_iff₀ N0]; norm_num at hNhi hg ⊢; linarith
    generalize g c[k].val / N = G at *
    generalize v / N = W at *
    rw [abs_le]
    norm_num at b3' q1 q2 q3 ⊢
    constructor <;> linarith [b3'.1, b3'.2]
  have ki := abs_le.1 (key i hi gi)
  have kj := abs_le.1 (key j hj gj)
  generalize ((sharpen M c p).getD i 0).val = oi at *
  generalize ((sharpen M c p).getD j 0).val = oj at *
  have gi0 : 0 < g c[i].val := lt_of_lt_of_le (by positivity) gi
  have gj0 : 0 < g c[j].val := lt_of_lt_of_le (by positivity) gj
  generalize g c[i].val = a at *
  generalize g c[j].val = b at *
  have main : (1 - 1 / 2 ^ 17) * (oi * b) ≤ oj * a := by
    have h1 : oi ≤ a / N * (1 + 3 / 2 ^ 20) := by linarith [ki.2]
    have h2 : b / N * (1 - 3 / 2 ^ 20) ≤ oj := by linarith [kj.1]
    have h3 := _root_.mul_le_mul_of_nonneg_right h1 gj0.le
    have h4 := _root_.mul_le_mul_of_nonneg_right h2 gi0.le
    have e1 : a / N * (1 + 3 / 2 ^ 20) * b = a * b / N * (1 + 3 / 2 ^ 20) := by ring
    have e2 : b / N * (1 - 3 / 2 ^ 20) * a = a * b / N * (1 - 3 / 2 ^ 20) := by ring
    have h5 : 0 < a * b / N := by positivity
    rw [e1] at h3; rw [e2] at h4
    generalize a * b / N = Z at *
    norm_num at h3 h4 ⊢
    linarith
  refine ⟨main, fun c0 hg => ?_⟩
  have oi0 : 0 ≤ oi := by
    have : 0 < a / N := by positivity
    have := ki.1
    norm_num at this; linarith
  have h1 := _root_.mul_le_mul_of_nonneg_right main c0
  have h2 := _root_.mul_le_mul_of_nonneg_left hg oi0
  have h3 : a * ((1 - 1 / 2 ^ 17) * (oi * c[j].val)) ≤ a * (oj * c[i].val) := by norm_num at h1 ⊢; linarith
  exact le_of_mul_le_mul_left h3 gi0

/-- a correctly rounded integer power, for the examples -/
def intPower (k : ℕ) : Libm := { Libm.demo with powf := fun x _ => rnd (x.val ^ k) }

example : PowerIs (intPower 2) 2 (fun x => x ^ 2) [0.8, 0.6, 0.05] ∧
    (∀ x ∈ ([0.8, 0.6, 0.05] : List F32), x.val ^ 2 ≤ 1 ∧ 1 / 2 ^ 30 ≤ x.val ^ 2) := by
  unfold PowerIs; decide +kernel

/-- **C146 violated**: a vector of unit length with one prominent pitch class, sharpened with power 24: the powers are so small that the
result is the uniform vector, and nothing of the contrast is left. -/
theorem C146_violated :
    ∃ (M : Libm) (c : List F32) (i j : Fin 12), c.length = 12 ∧ PowerIs M 24 (fun x => x ^ 24) c ∧ |exactSq c - 1| ≤ 1 / 100 ∧
      1.25 * c.getD i 0 < c.getD j 0 ∧ (sharpen M c 24).getD i 0 = (sharpen M c 24).getD j 0 :=
  ⟨intPower 24, 0.36 :: List.replicate 11 0.28125, 1, 0, by unfold PowerIs; decide +kernel⟩

end Verif.Props
