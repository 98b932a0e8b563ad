/-
Spectrogram masks (C49).
-/
import Verif.Model.Mask
import Verif.Props.Onset
import Verif.Props.Chroma
import Verif.Props.Stability
import Verif.Props.Grid

namespace Verif.Props
open Verif F32 Chroma Mask

/-- a rectangular, non-empty spectrogram of `n` frames and `m` bins -/
def Shape (s : List (List F32)) (n m : ℕ) : Prop := s.length = n ∧ ∀ fr ∈ s, fr.length = m

theorem length_grid (n m : ℕ) (f : ℕ → ℕ → F32) : Shape (grid n m f) n m := by
  refine ⟨by simp [grid], fun fr hfr => ?_⟩
  obtain ⟨t, -, rfl⟩ := List.mem_map.1 hfr
  simp

theorem grid_get {n m : ℕ} (f : ℕ → ℕ → F32) {t b : ℕ} (ht : t < n) (hb : b < m) :
    ((grid n m f).getD t []).getD b 0 = f t b := by
  unfold grid
  rw [List.getD_eq_getElem?_getD (l := List.map _ _), List.getElem?_map, List.getElem?_range ht]
  simp only [Option.map_some, Option.getD_some]
  rw [List.getD_eq_getElem?_getD, List.getElem?_map, List.getElem?_range hb]
  rfl

theorem check_ok {s : List (List F32)} {n m : ℕ} (h : Shape s n m) (hs : s ≠ []) (hm : 0 < m) :
    checkSpec s = .ok () ∧ (s.headD []).length = m := by
  obtain ⟨f, fs, rfl⟩ := List.exists_cons_of_ne_nil hs
  have hf : f.length = m := h.2 f (by simp)
  refine ⟨?_, hf⟩
  unfold checkSpec
  have h1 : ((f :: fs).headD []).length ≠ 0 := by show f.length ≠ 0; omega
  have h2 : ragged (f :: fs) = false := by
    unfold ragged
    rw [List.any_eq_false]
    intro x hx
    have h3 := h.2 x hx
    have h4 : ((f :: fs).headD []).length = m := hf
    simp [h3, hf]
  rw [if_neg h1, if_neg (by rw [h2]; simp)]

/-! ### The mask value -/

theorem mask_unit {hp rp : F32} (h0 : 0 ≤ hp) (hf : hp.isFinite = true) (hr : 0 ≤ rp) :
    0 ≤ hp / (hp + rp + MEPS) ∧ hp / (hp + rp + MEPS) ≤ 1 := by
  obtain ⟨e, he, ee, e0⟩ : ∃ e he, MEPS = fin e he ∧ 0 < e :=
    ⟨MEPS.val, by decide +kernel, by decide +kernel, by decide +kernel⟩
  obtain ⟨v, hv, rfl⟩ := isFinite_iff.1 hf
  have v0 : 0 ≤ v := by rw [zero_def, fin_le_fin] at h0; exact h0
  have zero_ok : ∀ d : F32, d = inf false → 0 ≤ fin v hv / d ∧ fin v hv / d ≤ 1 := by
    rintro d rfl; rw [fin_div_inf]; decide +kernel
  rw [ee]
  rcases nonneg_cases hr with rfl | ⟨w, hw, rfl, w0⟩
  · apply zero_ok; rw [fin_add_inf, inf_add_fin]
  · rw [add_fin]
    have hs0 : fin v hv ≤ rnd (v + w) := fin_le_rnd (by linarith)
    rcases nonneg_cases (F32.le_trans h0 hs0) with hi | ⟨s, hs, es, s0⟩
    · apply zero_ok; rw [hi, inf_add_fin]
    · rw [es] at hs0 ⊢
      rw [fin_le_fin] at hs0
      rw [add_fin]
      have hd : fin v hv ≤ rnd (s + e) := fin_le_rnd (by linarith)
      have hd' : fin e he ≤ rnd (s + e) := fin_le_rnd (by linarith)
      rcases nonneg_cases (F32.le_trans h0 hd) with hi | ⟨d, hdg, ed, d0⟩
      · exact zero_ok _ hi
      · rw [ed] at hd hd' ⊢
        rw [fin_le_fin] at hd hd'
        have dpos : 0 < d := by linarith
        rw [div_fin (by linarith), one_def]
        exact ⟨rnd_nonneg (by positivity), rnd_le_fin (by rw [div_le_one dpos]; exact hd)⟩

theorem mul_unit_le {x m : F32} (hx : 0 ≤ x) (hf : x.isFinite = true) (h0 : 0 ≤ m) (h1 : m ≤ 1) :
    0 ≤ x * m ∧ x * m ≤ x := by
  obtain ⟨v, hv, rfl⟩ := isFinite_iff.1 hf
  rw [zero_def] at h0 hx
  rw [fin_le_fin] at hx
  rw [one_def] at h1
  obtain ⟨w, hw, rfl, w0, w1⟩ := between_cases h0 h1
  rw [mul_fin]
  exact ⟨rnd_nonneg (by positivity), rnd_le_fin (by nlinarith)⟩

theorem max_zero_self {x : F32} (h : 0 ≤ x) : F32.max x 0 = x := by
  rcases nonneg_cases h with rfl | ⟨v, hv, rfl, v0⟩
  · decide +kernel
  · unfold F32.max
    rw [if_neg (by simp [isNaN]), if_neg (by rw [zero_def]; simp [isNaN]), zero_def]
    by_cases hv0 : v = 0
    · subst hv0; split_ifs <;> rfl
    · rw [if_neg (by rw [fin_lt_fin]; linarith)]

/-! ### Smoothing over time -/

theorem grid54 : ∃ h, rnd (pow2 54) = fin (pow2 54) h := ⟨by decide +kernel, by decide +kernel⟩

theorem prefix_bound {col : List F32} (h : ∀ x ∈ col, 0 ≤ x ∧ x ≤ rnd (pow2 30)) (k : ℕ) :
    0 ≤ prefixAt col k ∧ prefixAt col k ≤ rnd (pow2 54) := by
  have key : ∀ (l : List F32), (∀ x ∈ l, 0 ≤ x ∧ x ≤ rnd (pow2 30)) → ∀ a : F32, 0 ≤ a → a ≤ rnd (pow2 54) →
      0 ≤ l.foldl (· + ·) a ∧ l.foldl (· + ·) a ≤ rnd (pow2 54) := by
    intro l
    induction l with
    | nil => intro _ a h0 h1; exact ⟨h0, h1⟩
    | cons x l ih =>
      intro h a h0 h1
      obtain ⟨x0, x1⟩ := h x (by simp)
      refine ih (fun y hy => h y (by simp [hy])) _ (F32.add_nonneg h0 x0) ?_
      have hn := ne_nan_right (F32.add_nonneg h0 x0)
      exact F32.le_trans (F32.add_le_add h1 x1 hn (by decide +kernel)) (by decide +kernel)
  exact key _ (fun x hx => h x (List.mem_of_mem_take hx)) 0 (by decide +kernel) (by decide +kernel)

theorem smoothCell_bound {col : List F32} (h : ∀ x ∈ col, 0 ≤ x ∧ x ≤ rnd (pow2 30)) (hl : col.length ≤ 2 ^ 64)
    (margin t : ℕ) : ∃ v hv, smoothCell col margin t = fin v hv ∧ v ≤ pow2 54 := by
  unfold smoothCell
  dsimp only
  obtain ⟨a0, a1⟩ := prefix_bound h (Nat.min (t + margin + 1) col.length)
  obtain ⟨b0, b1⟩ := prefix_bound h (t - margin)
  have hN : Nat.max (Nat.min (t + margin + 1) col.length - (t - margin)) 1 ≤ 2 ^ 64 := by
    have : Nat.min (t + margin + 1) col.length ≤ col.length := Nat.min_le_right _ _
    apply Nat.max_le.2; constructor <;> omega
  have n1 := one_le_ofNat (n := Nat.max (Nat.min (t + margin + 1) col.length - (t - margin)) 1)
    (Nat.lt_of_lt_of_le Nat.zero_lt_one (Nat.le_max_right _ _))
  have nf := ofNat_finite (hN.trans (by norm_num : (2 ^ 64 : ℕ) ≤ 2 ^ 127))
  generalize prefixAt col (Nat.min (t + margin + 1) col.length) = p at *
  generalize prefixAt col (t - margin) = q at *
  generalize F32.ofNat (Nat.max (Nat.min (t + margin + 1) col.length - (t - margin)) 1) = w at n1 nf ⊢
  obtain ⟨g, eg⟩ := grid54
  rw [eg, ] at a1 b1
  rw [zero_def] at a0 b0
  obtain ⟨a, ha, rfl, a0, a1⟩ := between_cases a0 a1
  obtain ⟨b, hb, rfl, b0, b1⟩ := between_cases b0 b1
  obtain ⟨c, hc, rfl⟩ := isFinite_iff.1 nf
  rw [one_def, fin_le_fin] at n1
  rw [sub_fin]
  obtain ⟨hq, e, hle⟩ := rnd_finite_of_abs_le (q := a - b) g (by rw [abs_le]; constructor <;> linarith)
  rw [e, div_fin (by linarith)]
  obtain ⟨hq2, e2, hle2⟩ := rnd_finite_of_abs_le (q := rndQ (a - b) / c) g (by
    rw [_root_.abs_div, abs_of_pos (by linarith : (0 : ℚ) < c), div_le_iff₀ (by linarith)]
    nlinarith [pow2_pos 54])
  exact ⟨_, hq2, e2, (abs_le.1 hle2).2⟩

theorem column_mem {spec : List (List F32)} {n m : ℕ} (hs : Shape spec n m) {b : ℕ} (hb : b < m) {x : F32}
    (hx : x ∈ Mask.column spec b) : ∃ fr ∈ spec, x ∈ fr := by
  obtain ⟨fr, hfr, rfl⟩ := List.mem_map.1 hx
  refine ⟨fr, hfr, ?_⟩
  have := hs.2 fr hfr
  rw [List.getD_eq_getElem?_getD, List.getElem?_eq_getElem (by omega)]
  exact List.getElem_mem _

theorem at2_mem {spec : List (List F32)} {n m : ℕ} (hs : Shape spec n m) {t b : ℕ} (ht : t < n) (hb : b < m) :
    ∃ fr ∈ spec, at2 spec t b ∈ fr := by
  have ht' : t < spec.length := by rw [hs.1]; exact ht
  have := hs.2 _ (List.getElem_mem ht')
  refine ⟨spec[t], List.getElem_mem ht', ?_⟩
  unfold at2
  rw [List.getD_eq_getElem?_getD (l := spec), List.getElem?_eq_getElem ht', Option.getD_some,
    List.getD_eq_getElem?_getD, List.getElem?_eq_getElem (by omega)]
  exact List.getElem_mem _

/-- **C49 (partial), time mask.** For a rectangular spectrogram with values in `[0, 2^30]` and a power function that is
finite and non-negative on `[0, 2^54]` and non-negative elsewhere, the mask returns a spectrogram of the same shape
with every value between 0 and the input.  Missing: magnitudes whose power overflows (`C49_violated`). -/
theorem C49_time_mask_partial (M : Libm) (spec : List (List F32)) (n m margin : ℕ) (power : F32) (hs : Shape spec n m)
    (hn0 : 0 < n) (hm : 0 < m) (hn : n ≤ 2 ^ 64) (hv : ∀ fr ∈ spec, ∀ x ∈ fr, 0 ≤ x ∧ x ≤ rnd (pow2 30))
    (hp0 : ∀ x, 0 ≤ x → 0 ≤ M.powf x (F32.max power 1))
    (hp1 : ∀ x, 0 ≤ x → x ≤ rnd (pow2 54) → (M.powf x (F32.max power 1)).isFinite = true) :
    ∃ out, timeMask M spec margin power = .ok out ∧ Shape out n m ∧
      ∀ t < n, ∀ b < m, 0 ≤ (out.getD t []).getD b 0 ∧ (out.getD t []).getD b 0 ≤ (spec.getD t []).getD b 0 := by
  have hne : spec ≠ [] := by intro h; have := hs.1; rw [h] at this; simp at this; omega
  obtain ⟨hck, hhd⟩ := check_ok hs hne hm
  obtain ⟨g54, e54⟩ := grid54
  -- the smoothed value of every cell is bounded
  obtain ⟨hEst, eh, hb⟩ : ∃ hEst, smoothTime spec margin = .ok hEst ∧ ∀ t < n, ∀ b < m,
      0 ≤ F32.max (at2 hEst t b) 0 ∧ F32.max (at2 hEst t b) 0 ≤ rnd (pow2 54) := by
    unfold smoothTime
    by_cases h0 : spec = [] ∨ margin = 0
    · rw [if_pos h0]
      refine ⟨spec, rfl, fun t ht b hb => ?_⟩
      obtain ⟨fr, hfr, hx⟩ := at2_mem hs ht hb
      obtain ⟨x0, x1⟩ := hv fr hfr _ hx
      rw [max_zero_self x0]
      exact ⟨x0, F32.le_trans x1 (by decide +kernel)⟩
    · rw [if_neg h0, hck]
      refine ⟨_, rfl, fun t ht b hb => ?_⟩
      rw [hhd, hs.1]
      unfold at2
      rw [grid_get _ ht hb]
      obtain ⟨v, hv', e, hle⟩ := smoothCell_bound (col := Mask.column spec b) (fun x hx => by
        obtain ⟨fr, hfr, hx'⟩ := column_mem hs hb hx
        exact hv fr hfr x hx') (by unfold Mask.column; rw [List.length_map, hs.1]; exact hn) margin t
      rw [e, e54]
      refine ⟨le_max_right (by decide +kernel), ?_⟩
      rcases max_eq_left_or_right (fin v hv') 0 with e' | e' <;> rw [e']
      · rw [fin_le_fin]; exact hle
      · rw [zero_def, fin_le_fin]; exact (pow2_pos _).le
  refine ⟨grid spec.length (spec.headD []).length
      (fun t b => timeCell M (F32.max power 1) (at2 spec t b) (at2 hEst t b)), ?_, ?_, ?_⟩
  · unfold timeMask
    rw [if_neg hne, hck]
    simp only [R.ok_bind]
    rw [eh]
    rfl
  · rw [hhd, hs.1]; exact length_grid _ _ _
  · intro t ht b hb'
    rw [hhd, hs.1, grid_get _ ht hb']
    obtain ⟨fr, hfr, hx⟩ := at2_mem hs ht hb'
    obtain ⟨x0, x1⟩ := hv fr hfr _ hx
    obtain ⟨h0, h1⟩ := hb t ht b hb'
    unfold timeCell
    dsimp only
    rw [max_zero_self x0]
    have hxf : (at2 spec t b).isFinite = true := isFinite_of_between (lo := 0) (hi := rnd (pow2 30))
      (by decide +kernel) (by decide +kernel) x0 x1
    obtain ⟨m0, m1⟩ := mask_unit (hp0 _ h0) (hp1 _ h0 h1) (hp0 _ (le_max_right (a := at2 spec t b - F32.max (at2 hEst t b) 0)
      (b := 0) (by decide +kernel)))
    exact mul_unit_le x0 hxf m0 m1

/-- a library whose power function caps its result at `2^100` -/
def capLibm : Libm := { Libm.demo with powf := fun x _ => F32.min x (rnd (pow2 100)) }

theorem cap_powf (p : F32) : (∀ x, 0 ≤ x → 0 ≤ capLibm.powf x p) ∧
    (∀ x, 0 ≤ x → (capLibm.powf x p).isFinite = true) := by
  have h : ∀ x : F32, 0 ≤ x → 0 ≤ F32.min x (rnd (pow2 100)) ∧ F32.min x (rnd (pow2 100)) ≤ rnd (pow2 100) := fun x hx =>
    ⟨F32.le_min hx (by decide +kernel), F32.min_le_right (by decide +kernel)⟩
  exact ⟨fun x hx => (h x hx).1, fun x hx => isFinite_of_between (lo := 0) (hi := rnd (pow2 100))
    (by decide +kernel) (by decide +kernel) (h x hx).1 (h x hx).2⟩

example : ∃ out, timeMask capLibm [[1, 2], [3, 0], [5, 1]] 1 2 = .ok out ∧ Shape out 3 2 := by
  obtain ⟨out, e, s, -⟩ := C49_time_mask_partial capLibm [[1, 2], [3, 0], [5, 1]] 3 2 1 2 (by unfold Shape; decide +kernel) (by norm_num)
    (by norm_num) (by norm_num) (by decide +kernel) (cap_powf _).1 (fun x h _ => (cap_powf _).2 x h)
  exact ⟨out, e, s⟩

/-- **C49 is violated**: when the power of a magnitude overflows to infinity the masked value is NaN (here
`2^100` squared). -/
theorem C49_violated (M : Libm) (h : M.powf (rnd (pow2 100)) 2 = inf false) (h0 : M.powf 0 2 = 0) :
    timeMask M [[rnd (pow2 100)]] 0 2 = .ok [[nan]] := by
  have e1 : F32.max (rnd (pow2 100)) 0 = rnd (pow2 100) := by decide +kernel
  have e2 : F32.max (rnd (pow2 100) - rnd (pow2 100)) 0 = 0 := by decide +kernel
  have e3 : F32.max 2 1 = (2 : F32) := by decide +kernel
  have e4 : rnd (pow2 100) * (inf false / (inf false + 0 + MEPS)) = nan := by decide +kernel
  have : timeMask M [[rnd (pow2 100)]] 0 2 = .ok [[timeCell M (F32.max 2 1) (rnd (pow2 100)) (rnd (pow2 100))]] := rfl
  rw [this]
  unfold timeCell maskOf
  dsimp only
  rw [e1, e2, e3, h, h0, e4]

example : ({ Libm.demo with powf := fun x _ => x * x } : Libm).powf (rnd (pow2 100)) 2 = inf false ∧
    ({ Libm.demo with powf := fun x _ => x * x } : Libm).powf 0 2 = 0 := by decide +kernel

/-! ### The median mask -/

theorem sane0_range (x : F32) : 0 ≤ sane0 x ∧ (sane0 x).isFinite = true ∧ (0 ≤ x → sane0 x ≤ x) := by
  unfold sane0
  by_cases h : x.isFinite = true
  · rw [if_pos h]
    obtain ⟨v, hv, rfl⟩ := isFinite_iff.1 h
    refine ⟨le_max_right (by decide +kernel), ?_, ?_⟩
    · rcases max_eq_left_or_right (fin v hv) 0 with e | e <;> rw [e]
      · rfl
      · decide +kernel
    · intro h0; rw [max_zero_self h0]; exact F32.le_refl (by simp)
  · rw [if_neg h]
    exact ⟨by decide +kernel, by decide +kernel, fun h => h⟩

theorem medianInPlace_mem {v : List F32} : medianInPlace v ∈ v ∨ medianInPlace v = 0 := by
  unfold medianInPlace
  by_cases h : v = []
  · rw [if_pos h]; exact Or.inr rfl
  · rw [if_neg h]
    left
    have hl : v.length / 2 < (sortAsc id v).length := by
      rw [length_sortAsc]
      have := List.length_pos_iff.2 h
      omega
    rw [List.getD_eq_getElem?_getD, List.getElem?_eq_getElem hl]
    exact (mem_sortAsc).1 (List.getElem_mem hl)

theorem windowOf_mem {v : List F32} {margin i : ℕ} {y : F32} (h : y ∈ windowOf v margin i) : ∃ x ∈ v, y = sane0 x := by
  obtain ⟨x, hx, rfl⟩ := List.mem_map.1 h
  exact ⟨x, List.mem_of_mem_drop (List.mem_of_mem_take hx), rfl⟩

theorem median_window {v : List F32} {margin i : ℕ} {B : F32} (hB : 0 ≤ B) (h : ∀ x ∈ v, x.isFinite = true → x ≤ B) :
    0 ≤ medianInPlace (windowOf v margin i) ∧ medianInPlace (windowOf v margin i) ≤ B := by
  rcases medianInPlace_mem (v := windowOf v margin i) with hm | hm
  · obtain ⟨x, hx, e⟩ := windowOf_mem hm
    rw [e]
    refine ⟨(sane0_range x).1, ?_⟩
    unfold sane0
    by_cases hf : x.isFinite = true
    · rw [if_pos hf]
      rcases max_eq_left_or_right x 0 with e' | e' <;> rw [e']
      · exact h x hx hf
      · exact hB
    · rw [if_neg hf]; exact hB
  · rw [hm]; exact ⟨by decide +kernel, hB⟩

theorem bandDs_mem {spec : List (List F32)} {step lo hi : ℕ} {fr : List F32} (h : fr ∈ bandDs spec step lo hi) :
    ∃ src ∈ spec, fr = (src.drop lo).take (hi - lo) := by
  obtain ⟨t, ht, rfl⟩ := List.mem_map.1 h
  have ht' : t < spec.length := by
    have := (List.mem_filter.1 ht).1
    simpa using this
  exact ⟨spec[t], List.getElem_mem ht', by rw [List.getD_eq_getElem?_getD, List.getElem?_eq_getElem ht']; rfl⟩

theorem bandMask_unit {M : Libm} {p : F32} {spec : List (List F32)} {step lo hi tm fm k b : ℕ} {B : F32} (hB : 0 ≤ B)
    (h : ∀ fr ∈ spec, ∀ x ∈ fr, x.isFinite = true → x ≤ B) (hp : ∀ x, 0 ≤ x → x ≤ B → 0 ≤ M.powf x p ∧ (M.powf x p).isFinite = true) :
    0 ≤ bandMask M p (bandDs spec step lo hi) tm fm k b ∧ bandMask M p (bandDs spec step lo hi) tm fm k b ≤ 1 := by
  have hband : ∀ fr ∈ bandDs spec step lo hi, ∀ x ∈ fr, x.isFinite = true → x ≤ B := by
    intro fr hfr x hx hf
    obtain ⟨src, hsrc, rfl⟩ := bandDs_mem hfr
    exact h src hsrc x (List.mem_of_mem_drop (List.mem_of_mem_take hx)) hf
  have hcol : ∀ x ∈ Mask.column (bandDs spec step lo hi) b, x.isFinite = true → x ≤ B := by
    intro x hx hf
    obtain ⟨fr, hfr, rfl⟩ := List.mem_map.1 hx
    rw [List.getD_eq_getElem?_getD] at hf ⊢
    rcases e : fr[b]? with _ | y
    · exact hB
    · rw [e] at hf
      exact hband fr hfr y (List.mem_of_getElem? e) hf
  have hrow : ∀ x ∈ (bandDs spec step lo hi).getD k [], x.isFinite = true → x ≤ B := by
    intro x hx hf
    rw [List.getD_eq_getElem?_getD] at hx
    rcases e : (bandDs spec step lo hi)[k]? with _ | fr
    · rw [e] at hx; simp at hx
    · rw [e] at hx
      exact hband fr (List.mem_of_getElem? e) x hx hf
  unfold bandMask maskOf
  dsimp only
  obtain ⟨a0, a1⟩ := median_window (margin := tm) (i := k) hB hcol
  obtain ⟨b0, b1⟩ := median_window (margin := fm) (i := b) hB hrow
  rw [max_zero_self a0, max_zero_self b0]
  exact mask_unit (hp _ a0 a1).1 (hp _ a0 a1).2 (hp _ b0 b1).1

/-- **C49 (partial), median mask.** For a rectangular non-negative spectrogram (infinite values allowed) whose finite
values are at most `B`, with a power function that is finite and non-negative on `[0, B]`, and a band for
which the clamp is legal (`max(fmin, 20) + 1 ≤ sr / 2`), the mask returns a spectrogram of the same shape with
every value between 0 and the input.  Missing: illegal bands (`C49_violated_panic`) and powers that
overflow. -/
theorem C49_median_mask_partial (M : Libm) (spec : List (List F32)) (n m sr fft : ℕ) (fmin fmax : F32) (step tm fm : ℕ)
    (power B : F32) (hs : Shape spec n m) (hn0 : 0 < n) (hm : 0 < m) (hB : 0 ≤ B)
    (hv : ∀ fr ∈ spec, ∀ x ∈ fr, 0 ≤ x ∧ (x.isFinite = true → x ≤ B))
    (hp : ∀ x, 0 ≤ x → x ≤ B → 0 ≤ M.powf x (F32.max power 1) ∧ (M.powf x (F32.max power 1)).isFinite = true)
    (hband : F32.max fmin 20 + 1 ≤ F32.ofNat sr / 2) :
    ∃ out, medianMask M spec sr fft fmin fmax step tm fm power = .ok out ∧ Shape out n m ∧
      ∀ t < n, ∀ b < m, 0 ≤ (out.getD t []).getD b 0 ∧ (out.getD t []).getD b 0 ≤ (spec.getD t []).getD b 0 := by
  have hne : spec ≠ [] := by intro h; have := hs.1; rw [h] at this; simp at this; omega
  obtain ⟨hck, hhd⟩ := check_ok hs hne hm
  have hself : ∀ t < n, ∀ b < m, 0 ≤ (spec.getD t []).getD b 0 ∧ (spec.getD t []).getD b 0 ≤ (spec.getD t []).getD b 0 := by
    intro t ht b hb
    obtain ⟨fr, hfr, hx⟩ := at2_mem hs ht hb
    have := (hv fr hfr _ hx).1
    exact ⟨this, F32.le_refl (ne_nan_right this)⟩
  unfold medianMask
  rw [if_neg hne, hck]
  simp only [R.ok_bind]
  by_cases h0 : sr = 0 ∨ fft = 0
  · rw [if_pos h0]; exact ⟨spec, rfl, hs, hself⟩
  rw [if_neg h0]
  unfold clampP
  rw [if_pos hband]
  simp only [R.ok_bind]
  rw [hhd, hs.1]
  generalize Nat.min (F32.floor (F32.max fmin 20 / (F32.ofNat sr / F32.ofNat fft))).toUsize m = lo
  generalize Nat.min (F32.ceil (F32.clamp fmax (F32.max fmin 20 + 1) (F32.ofNat sr / 2) /
    (F32.ofNat sr / F32.ofNat fft))).toUsize m = hi
  by_cases h1 : hi ≤ lo
  · rw [if_pos h1]; exact ⟨spec, rfl, hs, hself⟩
  rw [if_neg h1]
  refine ⟨_, rfl, length_grid _ _ _, ?_⟩
  intro t ht b hb
  rw [grid_get _ ht hb]
  obtain ⟨fr, hfr, hx⟩ := at2_mem hs ht hb
  have hx0 := (hv fr hfr _ hx).1
  unfold bandCell
  split_ifs with hin
  · obtain ⟨m0, m1⟩ := bandMask_unit (step := Nat.max step 1) (lo := lo) (hi := hi) (tm := tm) (fm := fm)
      (k := Nat.min (t / Nat.max step 1) (Nat.max (bandDs spec (Nat.max step 1) lo hi).length 1 - 1)) (b := b - lo) hB
      (fun fr hfr x hx => (hv fr hfr x hx).2) hp
    obtain ⟨s0, sf, sl⟩ := sane0_range (at2 spec t b)
    obtain ⟨a, c⟩ := mul_unit_le s0 sf m0 m1
    exact ⟨a, F32.le_trans c (sl hx0)⟩
  · exact ⟨by decide +kernel, hx0⟩

example : ∃ out, medianMask capLibm [[1, 2], [3, inf false]] 1000 4 100 400 2 1 1 2 = .ok out ∧ Shape out 2 2 := by
  obtain ⟨out, e, s, -⟩ := C49_median_mask_partial capLibm [[1, 2], [3, inf false]] 2 2 1000 4 100 400 2 1 1 2 3 (by unfold Shape; decide +kernel)
    (by norm_num) (by norm_num) (by decide +kernel) (by decide +kernel)
    (fun x h _ => ⟨(cap_powf _).1 x h, (cap_powf _).2 x h⟩) (by decide +kernel)
  exact ⟨out, e, s⟩

/-- **C49 is violated** (settings): whenever the lower band edge plus 1 Hz is above the Nyquist frequency, the
median mask panics on every well-formed spectrogram. -/
theorem C49_violated_panic (M : Libm) (spec : List (List F32)) (n m sr fft : ℕ) (fmin fmax : F32) (step tm fm : ℕ)
    (power : F32) (hs : Shape spec n m) (hn0 : 0 < n) (hm : 0 < m) (hsr : 0 < sr) (hfft : 0 < fft)
    (hband : F32.ofNat sr / 2 < F32.max fmin 20 + 1) :
    medianMask M spec sr fft fmin fmax step tm fm power = R.panic := by
  have hne : spec ≠ [] := by intro h; have := hs.1; rw [h] at this; simp at this; omega
  obtain ⟨hck, hhd⟩ := check_ok hs hne hm
  unfold medianMask
  rw [if_neg hne, hck]
  simp only [R.ok_bind]
  rw [if_neg (by omega)]
  unfold clampP
  rw [if_neg (fun h => F32.lt_irrefl _ (F32.lt_of_le_of_lt h hband))]
  rfl

/-- 8 kHz audio, band from 4 kHz -/
example : F32.ofNat 8000 / 2 < F32.max 4000 20 + 1 := by decide +kernel

end Verif.Props
