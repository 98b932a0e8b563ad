/-
Lemmas about the novelty model: bounds of the curves before scaling, and the final scaling.
-/
import Verif.Model.Novelty
import Verif.Props.Stability

namespace Verif.Novelty
open Verif F32 Verif.Props

theorem eps_pos : (0 : F32) < EPS := by decide +kernel

/-- scaling a non-negative curve: values in `[0,1]`, or NaN where the curve was infinite -/
theorem peakNorm_spec {c : List F32} (h : ∀ x ∈ c, 0 ≤ x) : (peakNorm c).length = c.length ∧
    (∀ y ∈ peakNorm c, y = nan ∨ (0 ≤ y ∧ y ≤ 1)) ∧
    ((∀ x ∈ c, x.isFinite = true) → ∀ y ∈ peakNorm c, 0 ≤ y ∧ y ≤ 1) := by
  obtain ⟨m0, mn, mle, mmem⟩ := foldMax_spec (l := c) (a := 0) zero_ne_nan
  unfold peakNorm
  dsimp only
  by_cases hm : EPS < foldMax 0 c
  · rw [if_pos hm]
    have mpos : 0 < foldMax 0 c := F32.lt_trans eps_pos hm
    refine ⟨by simp, fun y hy => ?_, fun hf y hy => ?_⟩
    · obtain ⟨x, hx, rfl⟩ := List.mem_map.1 hy
      have hxm := mle x hx (ne_nan_right (h x hx))
      by_cases hfin : (foldMax 0 c).isFinite = true
      · exact .inr (div_le_one (h x hx) hxm mpos hfin)
      · rcases nonneg_cases (F32.le_of_lt mpos) with e | ⟨v, hv, e, -⟩
        · rw [e]
          rcases nonneg_cases (h x hx) with e | ⟨v, hv, e, -⟩
          · rw [e]; exact .inl rfl
          · rw [e, fin_div_inf]; exact .inr (by decide +kernel)
        · rw [e] at hfin; simp [isFinite] at hfin
    · obtain ⟨x, hx, rfl⟩ := List.mem_map.1 hy
      have hxm := mle x hx (ne_nan_right (h x hx))
      refine div_le_one (h x hx) hxm mpos ?_
      rcases mmem with e | e
      · rw [e]; decide +kernel
      · exact hf _ e
  · rw [if_neg hm]
    have hle : ∀ x ∈ c, 0 ≤ x ∧ x ≤ 1 := by
      intro x hx
      refine ⟨h x hx, F32.le_trans (mle x hx (ne_nan_right (h x hx))) (F32.le_trans (F32.le_of_not_lt mn ?_ hm) ?_)⟩
      · decide +kernel
      · decide +kernel
    exact ⟨rfl, fun y hy => .inr (hle y hy), fun _ => hle⟩

theorem rise_length (e : List F32) : (rise e).length = e.length - 1 := by simp [rise]

theorem rise_nonneg (e : List F32) : ∀ x ∈ rise e, 0 ≤ x := by
  intro x hx
  obtain ⟨i, -, rfl⟩ := List.mem_map.1 hx
  exact le_max_right zero_ne_nan

theorem mem_getD {l : List F32} {i : ℕ} (h : i < l.length) : at' l i ∈ l := by
  unfold at'
  rw [List.getD_eq_getElem?_getD, List.getElem?_eq_getElem h]
  exact List.getElem_mem h

/-- a bound for differences -/
theorem sub_bound {a b B : F32} (hBf : B.isFinite = true) (a0 : a = nan ∨ (0 ≤ a ∧ a ≤ B)) (b0 : b = nan ∨ (0 ≤ b ∧ b ≤ B))
    (hB : 0 ≤ B) : F32.max (a - b) 0 ≤ B := by
  rcases a0 with rfl | ⟨a0, a1⟩
  · show F32.max (nan + -b) 0 ≤ B
    rw [nan_add]; exact hB
  · rcases b0 with rfl | ⟨b0, b1⟩
    · show F32.max (a + -nan) 0 ≤ B
      rw [neg_nan, add_nan]; exact hB
    · obtain ⟨w, hw, rfl⟩ := isFinite_iff.1 hBf
      rw [zero_def] at a0 b0
      obtain ⟨x, hx, rfl, x0, x1⟩ := between_cases a0 a1
      obtain ⟨y, hy, rfl, y0, y1⟩ := between_cases b0 b1
      rw [sub_fin]
      exact F32.max_le (rnd_le_fin (by linarith)) hB

theorem rise_bound {e : List F32} {B : F32} (hBf : B.isFinite = true) (hB : 0 ≤ B)
    (h : ∀ x ∈ e, x = nan ∨ (0 ≤ x ∧ x ≤ B)) : ∀ x ∈ rise e, x ≤ B := by
  intro x hx
  obtain ⟨i, hi, rfl⟩ := List.mem_map.1 hx
  rw [List.mem_range] at hi
  exact sub_bound hBf (h _ (mem_getD (by omega))) (h _ (mem_getD (by omega))) hB

/-- a sum of bounded or NaN terms is bounded or NaN -/
theorem sum_bound {l : List F32} (h : ∀ x ∈ l, x = nan ∨ (0 ≤ x ∧ x ≤ rnd (pow2 101))) :
    F32.sum l = nan ∨ (0 ≤ F32.sum l ∧ F32.sum l ≤ rnd (pow2 126)) := by
  by_cases hn : ∃ x ∈ l, x = nan
  · obtain ⟨x, hx, rfl⟩ := hn
    left
    have key : ∀ (l : List F32) (a : F32), a = nan ∨ nan ∈ l → l.foldl (· + ·) a = nan := by
      intro l
      induction l with
      | nil => intro a h; simpa using h
      | cons y l ih =>
        intro a h
        rw [List.foldl_cons]
        apply ih
        rcases h with rfl | h
        · left; simp
        · rcases List.mem_cons.1 h with rfl | h
          · left; simp
          · right; exact h
    exact key l 0 (.inr hx)
  · push Not at hn
    have h' : ∀ x ∈ l, 0 ≤ x ∧ x ≤ rnd (pow2 101) := fun x hx => (h x hx).resolve_left (hn x hx)
    exact .inr ⟨F32.sum_nonneg (fun x hx => (h' x hx).1), sum_sat_aux h' 0 (by decide +kernel) (by decide +kernel)⟩

theorem sq_nonneg {d : F32} (h : 0 ≤ d) : 0 ≤ d * d := by
  apply F32.mul_nonneg h h
  rcases nonneg_cases h with rfl | ⟨v, hv, rfl, v0⟩
  · rw [inf_mul_inf]; simp
  · rw [mul_fin]; exact rnd_ne_nan _

theorem g50 : ∃ h, rnd (pow2 50) = fin (pow2 50) h := ⟨by decide +kernel, by decide +kernel⟩

theorem sq_bound {d : F32} (h0 : 0 ≤ d) (h1 : d ≤ rnd (pow2 50)) : d * d ≤ rnd (pow2 101) := by
  obtain ⟨g, e⟩ := g50
  rw [e] at h1; rw [zero_def] at h0
  obtain ⟨v, hv, rfl, v0, v1⟩ := between_cases h0 h1
  rw [mul_fin]
  apply rnd_mono
  have : pow2 50 * pow2 50 ≤ pow2 101 := by decide +kernel
  nlinarith

theorem sqrt126 : F32.sqrt (rnd (pow2 126)) ≤ rnd (pow2 63) := by decide +kernel

theorem superStep_nonneg (k s e : ℕ) (prev curr : List F32) : 0 ≤ superStep k s e prev curr := by
  apply F32.sqrt_nonneg
  apply F32.sum_nonneg
  intro x hx
  obtain ⟨b, -, rfl⟩ := List.mem_map.1 hx
  exact sq_nonneg (le_max_right zero_ne_nan)

theorem spectralStep_nonneg (prev curr : List F32) : 0 ≤ spectralStep prev curr := by
  apply F32.sqrt_nonneg
  apply F32.sum_nonneg
  intro x hx
  obtain ⟨b, -, rfl⟩ := List.mem_map.1 hx
  exact sq_nonneg (le_max_right zero_ne_nan)

theorem pairs_length (f : List F32 → List F32 → F32) (frames : List (List F32)) :
    (pairs f frames).length = frames.length - 1 := by simp [pairs]

theorem pairs_all {f : List F32 → List F32 → F32} {frames : List (List F32)} {P : F32 → Prop}
    (h : ∀ a b, a ∈ frames → b ∈ frames → P (f a b)) : ∀ x ∈ pairs f frames, P x := by
  intro x hx
  obtain ⟨i, hi, rfl⟩ := List.mem_map.1 hx
  rw [List.mem_range] at hi
  have key : ∀ j, j < frames.length → frames.getD j [] ∈ frames := by
    intro j hj
    rw [List.getD_eq_getElem?_getD, List.getElem?_eq_getElem hj]
    exact List.getElem_mem hj
  exact h _ _ (key _ (by omega)) (key _ (by omega))

/-- values of one log frame and their running maximum -/
def Small (l : List F32) : Prop := ∀ x ∈ l, 0 ≤ x ∧ x ≤ rnd (pow2 50)

theorem small_at {l : List F32} (h : Small l) (i : ℕ) : 0 ≤ at' l i ∧ at' l i ≤ rnd (pow2 50) := by
  unfold at'
  rw [List.getD_eq_getElem?_getD]
  rcases e : l[i]? with _ | x
  · decide +kernel
  · exact h x (List.mem_of_getElem? e)

theorem prevMax_range {k s e b : ℕ} {prev : List F32} (h : Small prev) :
    0 ≤ prevMax k s e b prev ∧ prevMax k s e b prev ≤ rnd (pow2 50) := by
  obtain ⟨m0, mn, mle, mmem⟩ := foldMax_spec (l := band (Nat.max (b - k) s) (Nat.min (b + k + 1) e) prev) (a := 0) zero_ne_nan
  refine ⟨m0, ?_⟩
  unfold prevMax
  rcases mmem with e | e
  · rw [e]; decide +kernel
  · exact (h _ (List.mem_of_mem_take (List.mem_of_mem_drop e))).2

theorem superStep_finite {k s e : ℕ} {prev curr : List F32} (hp : Small prev) (hc : Small curr) :
    (superStep k s e prev curr).isFinite = true := by
  refine isFinite_of_between (lo := 0) (hi := rnd (pow2 63)) (by decide +kernel) (by decide +kernel)
    (superStep_nonneg _ _ _ _ _) ?_
  have hs : ∀ x ∈ (List.range' s (e - s)).map (fun b =>
      F32.max (at' curr b - prevMax k s e b prev) 0 * F32.max (at' curr b - prevMax k s e b prev) 0),
      0 ≤ x ∧ x ≤ rnd (pow2 101) := by
    intro x hx
    obtain ⟨b, -, rfl⟩ := List.mem_map.1 hx
    have h0 : 0 ≤ F32.max (at' curr b - prevMax k s e b prev) 0 := le_max_right zero_ne_nan
    exact ⟨sq_nonneg h0, sq_bound h0 (sub_bound (by decide +kernel) (.inr (small_at hc b)) (.inr (prevMax_range hp))
      (by decide +kernel))⟩
  refine F32.le_trans (F32.sqrt_mono (F32.sum_nonneg fun x hx => (hs x hx).1) ?_) sqrt126
  exact sum_sat_aux hs 0 (by decide +kernel) (by decide +kernel)

/-- the same, NaN allowed -/
def SmallN (l : List F32) : Prop := ∀ x ∈ l, x = nan ∨ (0 ≤ x ∧ x ≤ rnd (pow2 50))

theorem spectralStep_finite {prev curr : List F32} (hp : SmallN prev) (hc : SmallN curr) :
    (spectralStep prev curr).isFinite = true := by
  refine isFinite_of_between (lo := 0) (hi := rnd (pow2 63)) (by decide +kernel) (by decide +kernel)
    (spectralStep_nonneg _ _) ?_
  have hs : ∀ x ∈ (prev.zip curr).map (fun p => F32.max (p.2 - p.1) 0 * F32.max (p.2 - p.1) 0),
      0 ≤ x ∧ x ≤ rnd (pow2 101) := by
    intro x hx
    obtain ⟨p, hp', rfl⟩ := List.mem_map.1 hx
    have h0 : 0 ≤ F32.max (p.2 - p.1) 0 := le_max_right zero_ne_nan
    exact ⟨sq_nonneg h0, sq_bound h0 (sub_bound (by decide +kernel) (hc _ (List.of_mem_zip hp').2)
      (hp _ (List.of_mem_zip hp').1) (by decide +kernel))⟩
  refine F32.le_trans (F32.sqrt_mono (F32.sum_nonneg fun x hx => (hs x hx).1) ?_) sqrt126
  exact sum_sat_aux hs 0 (by decide +kernel) (by decide +kernel)

/-- a magnitude that is NaN or an ordinary non-negative number -/
def Plain (x : F32) : Prop := x = nan ∨ (0 ≤ x ∧ x ≤ rnd (pow2 30))

theorem g30 : ∃ h, rnd (pow2 30) = fin (pow2 30) h := ⟨by decide +kernel, by decide +kernel⟩

theorem plain_sq {x : F32} (h : Plain x) : x * x = nan ∨ (0 ≤ x * x ∧ x * x ≤ rnd (pow2 101)) := by
  rcases h with rfl | ⟨h0, h1⟩
  · exact .inl rfl
  · exact .inr ⟨sq_nonneg h0, sq_bound h0 (F32.le_trans h1 (by decide +kernel))⟩

theorem energy_bound {fr : List F32} (h : ∀ x ∈ fr, Plain x) :
    energy fr = nan ∨ (0 ≤ energy fr ∧ energy fr ≤ rnd (pow2 126)) := by
  apply sum_bound
  intro y hy
  obtain ⟨x, hx, rfl⟩ := List.mem_map.1 hy
  exact plain_sq (h x hx)

theorem ofNat_le32 {k : ℕ} (h : k ≤ 2 ^ 32) : F32.ofNat k ≤ rnd (pow2 32) := by
  apply rnd_mono
  have : pow2 32 = 2 ^ 32 := by decide +kernel
  rw [this]; exact_mod_cast h

theorem hfcFrom_bound {s : ℕ} {fr : List F32} (h : ∀ x ∈ fr, Plain x) (hl : s + fr.length ≤ 2 ^ 32) :
    hfcFrom s fr = nan ∨ (0 ≤ hfcFrom s fr ∧ hfcFrom s fr ≤ rnd (pow2 126)) := by
  apply sum_bound
  intro y hy
  obtain ⟨⟨x, k⟩, hp, rfl⟩ := List.mem_map.1 hy
  obtain ⟨hk, hk', hx'⟩ := List.mem_zipIdx hp
  have hx : x ∈ fr := by rw [hx']; exact List.getElem_mem _
  dsimp only
  rcases h x hx with rfl | ⟨h0, h1⟩
  · left; simp
  · right
    obtain ⟨g, e⟩ := g30
    rw [e] at h1; rw [zero_def] at h0
    obtain ⟨v, hv, rfl, v0, v1⟩ := between_cases h0 h1
    have hn := ofNat_le32 (k := k) (by omega)
    have hn0 := ofNat_nonneg k
    rw [show rnd (pow2 32) = fin (pow2 32) (by decide +kernel) by decide +kernel] at hn
    rw [zero_def] at hn0
    obtain ⟨w, hw, ew, w0, w1⟩ := between_cases hn0 hn
    rw [ew, mul_fin]
    have gl : OnGrid (pow2 62) ∧ |pow2 62| < pow2 128 := by decide +kernel
    have h32 : pow2 32 * pow2 30 = pow2 62 := by decide +kernel
    obtain ⟨gb, eb, lb, ub⟩ := rnd_between (x := w * v) grid_zero gl (by positivity) (by
      rw [← h32]; exact _root_.mul_le_mul w1 v1 v0 (pow2_pos _).le)
    rw [eb, mul_fin]
    refine ⟨rnd_nonneg (by positivity), rnd_mono ?_⟩
    have h92 : pow2 62 * pow2 30 ≤ pow2 101 := by decide +kernel
    exact (_root_.mul_le_mul ub v1 v0 (pow2_pos _).le).trans h92

/-- the scaled frame of `spectral_flux_novelty` -/
theorem normFrame_small {fr : List F32} (h : ∀ x ∈ fr, x = nan ∨ (0 ≤ x ∧ x.isFinite = true)) : SmallN (normFrame fr) := by
  obtain ⟨m0, mn, mle, mmem⟩ := foldMax_spec (l := fr) (a := 0) zero_ne_nan
  intro y hy
  unfold normFrame at hy
  dsimp only at hy
  by_cases hm : EPS < foldMax 0 fr
  · rw [if_pos hm] at hy
    obtain ⟨x, hx, rfl⟩ := List.mem_map.1 hy
    have hf : (foldMax 0 fr).isFinite = true := by
      rcases mmem with e | e
      · rw [e]; decide +kernel
      · rcases h _ e with h | h
        · exact absurd h mn
        · exact h.2
    rcases h x hx with rfl | h'
    · left; simp
    · obtain ⟨a, b⟩ := div_le_one h'.1 (mle x hx (ne_nan_right h'.1)) (F32.lt_trans eps_pos hm) hf
      exact .inr ⟨a, F32.le_trans b (by decide +kernel)⟩
  · rw [if_neg hm] at hy
    obtain ⟨x, hx, rfl⟩ := List.mem_map.1 hy
    right; decide +kernel

theorem plain_finite {x : F32} (h : Plain x) : x = nan ∨ (0 ≤ x ∧ x.isFinite = true) := by
  rcases h with h | ⟨h0, h1⟩
  · exact .inl h
  · exact .inr ⟨h0, isFinite_of_between (lo := 0) (hi := rnd (pow2 30)) (by decide +kernel) (by decide +kernel) h0 h1⟩

/-- what is needed of the natural logarithm: between 0 and 128 on finite numbers from 1 on -/
def LnSane (M : Libm) : Prop := ∀ x, 1 ≤ x → x.isFinite = true → 0 ≤ M.ln x ∧ M.ln x ≤ 128

theorem logMag_range {M : Libm} (hM : LnSane M) {x : F32} (h : Plain x) : 0 ≤ logMag M x ∧ logMag M x ≤ 128 := by
  apply hM
  · have h0 : 0 ≤ F32.max x 0 := le_max_right zero_ne_nan
    rcases nonneg_cases h0 with e | ⟨v, hv, e, v0⟩
    · rw [e]; decide +kernel
    · rw [e, one_def, add_fin]; exact fin_le_rnd (by linarith)
  · obtain ⟨g, e⟩ := g30
    have h1 : F32.max x 0 ≤ fin (pow2 30) g := by
      rcases h with rfl | ⟨h0, h1⟩
      · rw [← e]; decide +kernel
      · rw [← e]; exact F32.max_le h1 (by decide +kernel)
    have h0 : 0 ≤ F32.max x 0 := le_max_right zero_ne_nan
    rw [zero_def] at h0 h1
    obtain ⟨v, hv, ev, v0, v1⟩ := between_cases h0 h1
    rw [zero_def, ev, one_def, add_fin]
    have gl : OnGrid (pow2 31) ∧ |pow2 31| < pow2 128 := by decide +kernel
    have : 1 + pow2 30 ≤ pow2 31 := by decide +kernel
    obtain ⟨gb, eb, -, -⟩ := rnd_between (x := 1 + v) grid_zero gl (by linarith) (by linarith)
    rw [eb]; rfl

theorem logFrame_small {M : Libm} (hM : LnSane M) {fr : List F32} (h : ∀ x ∈ fr, Plain x) : Small (fr.map (logMag M)) := by
  intro y hy
  obtain ⟨x, hx, rfl⟩ := List.mem_map.1 hy
  obtain ⟨a, b⟩ := logMag_range hM (h x hx)
  exact ⟨a, F32.le_trans b (by decide +kernel)⟩

end Verif.Novelty
