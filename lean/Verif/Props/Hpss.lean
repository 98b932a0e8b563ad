/-
Harmonic/percussive separation: the parts never exceed the input (C49) and add up to it (C72).
-/
import Verif.Props.Mask

namespace Verif.Props
open Verif F32 Onset

/-- every cell of `s` is between 0 and `2^126` -/
def Bounded (s : List (List F32)) : Prop := ∀ fr ∈ s, ∀ x ∈ fr, 0 ≤ x ∧ x ≤ rnd (pow2 126)

theorem g126 : ∃ h, rnd (pow2 126) = fin (pow2 126) h := ⟨by decide +kernel, by decide +kernel⟩

theorem windowMedian_bound {w : List F32} (h : ∀ x ∈ w, 0 ≤ x ∧ x ≤ rnd (pow2 126)) :
    0 ≤ windowMedian w ∧ windowMedian w ≤ rnd (pow2 126) := by
  unfold windowMedian
  by_cases h0 : w = []
  · subst h0; decide +kernel
  · obtain ⟨g, e⟩ := g126
    have hm := medianSorted_spec h0 (fun x hx => ne_nan_right (h x hx).1)
    refine ⟨median_nonneg hm (fun x hx => (h x hx).1), ?_⟩
    obtain ⟨v, hv, ev, hle⟩ := median_finite hm g (by decide +kernel) (by
      intro x hx
      obtain ⟨x0, x1⟩ := h x hx
      rw [e] at x1; rw [zero_def] at x0
      obtain ⟨y, hy, rfl, y0, y1⟩ := between_cases x0 x1
      rw [abs_fin, fin_le_fin, abs_of_nonneg y0]; exact y1)
    rw [ev, e, fin_le_fin]
    exact (abs_le.1 hle).2

theorem window_mem {v : List F32} {margin i : ℕ} {x : F32} (h : x ∈ window v margin i) : x ∈ v :=
  List.mem_of_mem_drop (List.mem_of_mem_take h)

theorem getD_bound {fr : List F32} (h : ∀ x ∈ fr, 0 ≤ x ∧ x ≤ rnd (pow2 126)) (j : ℕ) :
    0 ≤ at' fr j ∧ at' fr j ≤ rnd (pow2 126) := by
  unfold at'
  rw [List.getD_eq_getElem?_getD]
  rcases e : fr[j]? with _ | x
  · decide +kernel
  · exact h x (List.mem_of_getElem? e)

theorem medianTime_bounded {s : List (List F32)} (h : Bounded s) (margin : ℕ) : Bounded (medianTime s margin) := by
  intro fr hfr x hx
  obtain ⟨p, -, rfl⟩ := List.mem_map.1 hfr
  obtain ⟨j, -, rfl⟩ := List.mem_map.1 hx
  apply windowMedian_bound
  intro y hy
  obtain ⟨fr, hfr, rfl⟩ := List.mem_map.1 (window_mem hy)
  exact getD_bound (h fr hfr) j

theorem medianFreq_bounded {s : List (List F32)} (h : Bounded s) (margin : ℕ) : Bounded (medianFreq s margin) := by
  intro fr hfr x hx
  obtain ⟨fr', hfr', rfl⟩ := List.mem_map.1 hfr
  obtain ⟨j, -, rfl⟩ := List.mem_map.1 hx
  exact windowMedian_bound (fun y hy => h fr' hfr' y (window_mem hy))

theorem cell_bounded {s : List (List F32)} (h : Bounded s) (i j : ℕ) : 0 ≤ cell s i j ∧ cell s i j ≤ rnd (pow2 126) := by
  unfold cell
  apply getD_bound
  intro x hx
  rw [List.getD_eq_getElem?_getD] at hx
  rcases e : s[i]? with _ | fr
  · rw [e] at hx; simp at hx
  · rw [e] at hx; exact h fr (List.mem_of_getElem? e) x hx

/-- the parts of one cell -/
theorem splitCell_range {x h p : F32} (hx : 0 ≤ x) (hx1 : x ≤ rnd (pow2 126)) (h0 : 0 ≤ h) (h1 : h ≤ rnd (pow2 126))
    (p0 : 0 ≤ p) (p1 : p ≤ rnd (pow2 126)) :
    (0 ≤ (splitCell x h p).1 ∧ (splitCell x h p).1 ≤ x) ∧ (0 ≤ (splitCell x h p).2 ∧ (splitCell x h p).2 ≤ x) := by
  have hxf : x.isFinite = true := isFinite_of_between (lo := 0) (hi := rnd (pow2 126))
      (by decide +kernel) (by decide +kernel) hx hx1
  unfold splitCell
  dsimp only
  by_cases ht : (1e-10 : F32) < h + p
  · rw [if_pos ht]
    obtain ⟨g, e⟩ := g126
    rw [e] at h1 p1
    rw [zero_def] at h0 p0
    obtain ⟨a, ha, rfl, a0, a1⟩ := between_cases h0 h1
    obtain ⟨b, hb, rfl, b0, b1⟩ := between_cases p0 p1
    have gl : OnGrid (2 * pow2 126) ∧ |2 * pow2 126| < pow2 128 := by decide +kernel
    obtain ⟨hq, eq, hle, -⟩ := rnd_between (x := a + b) grid_zero gl (by linarith) (by linarith)
    rw [add_fin, eq] at ht ⊢
    have hat : a ≤ rndQ (a + b) := le_rndQ_of_onGrid ha.1 (by linarith)
    have hbt : b ≤ rndQ (a + b) := le_rndQ_of_onGrid hb.1 (by linarith)
    have htp : 0 < rndQ (a + b) := by
      have : (0 : F32) < fin (rndQ (a + b)) hq := F32.lt_trans (by decide +kernel) ht
      rw [zero_def, fin_lt_fin] at this; exact this
    have unit : ∀ v hv, 0 ≤ v → v ≤ rndQ (a + b) → 0 ≤ fin v hv / fin (rndQ (a + b)) hq ∧
        fin v hv / fin (rndQ (a + b)) hq ≤ 1 := by
      intro v hv v0 v1
      rw [div_fin htp.ne', one_def]
      exact ⟨rnd_nonneg (by positivity), rnd_le_fin (by rw [div_le_one htp]; exact v1)⟩
    exact ⟨mul_unit_le hx hxf (unit a ha a0 hat).1 (unit a ha a0 hat).2,
      mul_unit_le hx hxf (unit b hb b0 hbt).1 (unit b hb b0 hbt).2⟩
  · rw [if_neg ht]
    have := mul_unit_le (m := 0.5) hx hxf (by decide +kernel) (by decide +kernel)
    exact ⟨this, this⟩

/-- same shape, and every cell between 0 and the corresponding cell of `orig` -/
def Below (orig s : List (List F32)) : Prop :=
  s.length = orig.length ∧ (∀ i < orig.length, (s.getD i []).length = (orig.getD i []).length) ∧
  ∀ i < orig.length, ∀ j < (orig.getD i []).length, 0 ≤ (s.getD i []).getD j 0 ∧
    (s.getD i []).getD j 0 ≤ (orig.getD i []).getD j 0

theorem zipIdx_map_get {α β : Type} (l : List α) (f : α × ℕ → β) (d : α) (e : β) {i : ℕ} (h : i < l.length) :
    (l.zipIdx.map f).getD i e = f (l.getD i d, i) := by
  rw [List.getD_eq_getElem?_getD, List.getElem?_map, List.getElem?_zipIdx, List.getElem?_eq_getElem h,
    List.getD_eq_getElem?_getD, List.getElem?_eq_getElem h]
  simp

/-- the cells after one refinement step -/
theorem step_cells (orig : List (List F32)) (margin : ℕ) (hp : List (List F32) × List (List F32)) :
    ((hpssStep orig margin hp).1.length = orig.length ∧ (hpssStep orig margin hp).2.length = orig.length) ∧
    ∀ i < orig.length,
      (((hpssStep orig margin hp).1.getD i []).length = (orig.getD i []).length ∧
        ((hpssStep orig margin hp).2.getD i []).length = (orig.getD i []).length) ∧
      ∀ j < (orig.getD i []).length,
        ((hpssStep orig margin hp).1.getD i []).getD j 0 = (splitCell ((orig.getD i []).getD j 0)
          (cell (medianTime hp.1 margin) i j) (cell (medianFreq hp.2 margin) i j)).1 ∧
        ((hpssStep orig margin hp).2.getD i []).getD j 0 = (splitCell ((orig.getD i []).getD j 0)
          (cell (medianTime hp.1 margin) i j) (cell (medianFreq hp.2 margin) i j)).2 := by
  unfold hpssStep
  dsimp only
  refine ⟨by simp, fun i hi => ?_⟩
  rw [zipIdx_map_get _ _ [] [] hi, zipIdx_map_get _ _ [] [] hi]
  dsimp only
  refine ⟨by simp, fun j hj => ?_⟩
  rw [zipIdx_map_get _ _ 0 0 hj, zipIdx_map_get _ _ 0 0 hj]
  exact ⟨rfl, rfl⟩

theorem below_bounded {orig s : List (List F32)} (ho : Bounded orig) (h : Below orig s) : Bounded s := by
  intro fr hfr x hx
  obtain ⟨i, hi, rfl⟩ := List.mem_iff_getElem.1 hfr
  obtain ⟨j, hj, rfl⟩ := List.mem_iff_getElem.1 hx
  have hi' : i < orig.length := by rw [← h.1]; exact hi
  have e1 : s.getD i [] = s[i] := by rw [List.getD_eq_getElem?_getD, List.getElem?_eq_getElem hi]; rfl
  have e2 : orig.getD i [] = orig[i] := by rw [List.getD_eq_getElem?_getD, List.getElem?_eq_getElem hi']; rfl
  have hlen := h.2.1 i hi'
  rw [e1, e2] at hlen
  have hc := h.2.2 i hi' j (by rw [e2]; omega)
  rw [e1, e2] at hc
  have e3 : s[i].getD j 0 = s[i][j] := by rw [List.getD_eq_getElem?_getD, List.getElem?_eq_getElem hj]; rfl
  have e4 : orig[i].getD j 0 = orig[i][j]'(by omega) := by
    rw [List.getD_eq_getElem?_getD, List.getElem?_eq_getElem (by omega)]; rfl
  rw [e3, e4] at hc
  exact ⟨hc.1, F32.le_trans hc.2 (ho _ (List.getElem_mem hi') _ (List.getElem_mem _)).2⟩

theorem orig_bound {orig : List (List F32)} (ho : Bounded orig) {i j : ℕ} (_ : i < orig.length)
    (_ : j < (orig.getD i []).length) : 0 ≤ (orig.getD i []).getD j 0 ∧ (orig.getD i []).getD j 0 ≤ rnd (pow2 126) :=
  cell_bounded ho i j

theorem step_below {orig : List (List F32)} (ho : Bounded orig) (margin : ℕ) {hp : List (List F32) × List (List F32)}
    (h1 : Bounded hp.1) (h2 : Bounded hp.2) :
    Below orig (hpssStep orig margin hp).1 ∧ Below orig (hpssStep orig margin hp).2 := by
  obtain ⟨⟨l1, l2⟩, hc⟩ := step_cells orig margin hp
  have key : ∀ i (hi : i < orig.length) j (hj : j < (orig.getD i []).length), _ := fun i hi j hj =>
    splitCell_range (orig_bound ho hi hj).1 (orig_bound ho hi hj).2
      (cell_bounded (medianTime_bounded h1 margin) i j).1 (cell_bounded (medianTime_bounded h1 margin) i j).2
      (cell_bounded (medianFreq_bounded h2 margin) i j).1 (cell_bounded (medianFreq_bounded h2 margin) i j).2
  refine ⟨⟨l1, fun i hi => ((hc i hi).1).1, fun i hi j hj => ?_⟩, ⟨l2, fun i hi => ((hc i hi).1).2, fun i hi j hj => ?_⟩⟩
  · rw [((hc i hi).2 j hj).1]; exact (key i hi j hj).1
  · rw [((hc i hi).2 j hj).2]; exact (key i hi j hj).2

/-- the loop ends with a refinement step -/
theorem loop_last {orig : List (List F32)} (ho : Bounded orig) (margin : ℕ) : ∀ (n it : ℕ)
    (hp : List (List F32) × List (List F32)), Bounded hp.1 → Bounded hp.2 →
    ∃ hp', Bounded hp'.1 ∧ Bounded hp'.2 ∧ hpssLoop orig margin (n + 1) it hp = hpssStep orig margin hp' := by
  intro n
  induction n with
  | zero =>
    intro it hp h1 h2
    refine ⟨hp, h1, h2, ?_⟩
    unfold hpssLoop
    dsimp only
    split_ifs
    · rfl
    · rfl
  | succ n ih =>
    intro it hp h1 h2
    obtain ⟨b1, b2⟩ := step_below ho margin h1 h2
    unfold hpssLoop
    dsimp only
    split_ifs
    · exact ⟨hp, h1, h2, rfl⟩
    · exact ih (it + 1) _ (below_bounded ho b1) (below_bounded ho b2)

theorem hpss_last {spec : List (List F32)} {n m : ℕ} (margin : ℕ) (hs : Shape spec n m) (hn : 0 < n) (hm : 0 < m)
    (hv : Bounded spec) : ∃ hp, Bounded hp.1 ∧ Bounded hp.2 ∧ hpssDecompose spec margin = .ok (hpssStep spec margin hp) := by
  have hne : spec ≠ [] := by intro h; have := hs.1; rw [h] at this; simp at this; omega
  obtain ⟨hp, b1, b2, e⟩ := loop_last hv margin 9 0 (spec, spec) hv hv
  refine ⟨hp, b1, b2, ?_⟩
  unfold hpssDecompose
  rw [if_neg hne]
  obtain ⟨f, fs, rfl⟩ := List.exists_cons_of_ne_nil hne
  have hf : f.length = m := hs.2 f (by simp)
  have h1 : ((f :: fs).headD []).length ≠ 0 := by show f.length ≠ 0; omega
  have h2 : ((f :: fs).any (fun x => x.length != ((f :: fs).headD []).length)) = false := by
    rw [List.any_eq_false]
    intro x hx
    have h3 := hs.2 x hx
    simp [h3, hf]
  rw [if_neg h1, if_neg (by rw [h2]; simp), e]

/-- **C49 (partial), HPSS.** For a rectangular spectrogram with values in `[0, 2^126]` both parts have the shape of the
input and every value between 0 and the input.  Missing: larger values, whose window medians overflow
(`C49_violated_hpss`). -/
theorem C49_hpss_partial (spec : List (List F32)) (n m margin : ℕ) (hs : Shape spec n m) (hn : 0 < n) (hm : 0 < m)
    (hv : ∀ fr ∈ spec, ∀ x ∈ fr, 0 ≤ x ∧ x ≤ rnd (pow2 126)) :
    ∃ h p, hpssDecompose spec margin = .ok (h, p) ∧ Below spec h ∧ Below spec p := by
  obtain ⟨hp, b1, b2, e⟩ := hpss_last margin hs hn hm hv
  exact ⟨_, _, e, step_below hv margin b1 b2⟩

example : Shape [[1, 4, 1], [1, 5, 0]] 2 3 ∧ ∀ fr ∈ [[1, 4, 1], [1, 5, (0 : F32)]], ∀ x ∈ fr, 0 ≤ x ∧ x ≤ rnd (pow2 126) := by
  unfold Shape; decide +kernel

/-- two frames of one extremely loud steady partial -/
def loudPartial : List (List F32) := [[0, rnd (pow2 127), 0], [0, rnd (pow2 127), 0]]

/-- **C49 is violated** (HPSS): the two central values of an even window are added before they are halved, so one
extremely loud steady partial makes the harmonic part NaN, although the input is finite. -/
theorem C49_violated_hpss : (∀ fr ∈ loudPartial, ∀ x ∈ fr, x.isFinite = true) ∧
    ∃ h p, hpssDecompose loudPartial 1 = .ok (h, p) ∧ (h.getD 0 []).getD 1 0 = nan := by
  refine ⟨by decide +kernel, ?_⟩
  have h : (match hpssDecompose loudPartial 1 with
      | .ok r => (r.1.getD 0 []).getD 1 0 | _ => 0) = nan := by decide +kernel
  rcases e : hpssDecompose loudPartial 1 with _ | r
  · rw [e] at h; exact absurd (show (0 : F32) = nan from h) (by decide +kernel)
  · rw [e] at h; exact ⟨r.1, r.2, rfl, h⟩

/-- **C72 is violated by an extremely loud steady partial**: its two parts add up to NaN, not to the finite input. -/
theorem C72_violated : (∀ fr ∈ loudPartial, ∀ x ∈ fr, 0 ≤ x ∧ x.isFinite = true) ∧
    ∃ h p, hpssDecompose loudPartial 1 = .ok (h, p) ∧ (h.getD 0 []).getD 1 0 + (p.getD 0 []).getD 1 0 = nan := by
  obtain ⟨-, h, p, e, hn⟩ := C49_violated_hpss
  exact ⟨by decide +kernel, h, p, e, by rw [hn, nan_add]⟩

/-! ### The parts add up -/

/-- rounding a ratio of the sum and scaling -/
theorem part_err {x r a A : ℚ} (hx : 0 ≤ x) (hr : 0 ≤ r)
    (ha : |a - r| ≤ r * eps + eta) (hA : |A - x * a| ≤ |x * a| * eps + eta) :
    |A - x * r| ≤ x * r * (3 / 2 ^ 24) + x * (2 * eta) + eta := by
  have heps : eps = 1 / 2 ^ 24 := rfl
  have heta : eta = 1 / 2 ^ 150 := rfl
  have e1 : A - x * r = (A - x * a) + x * (a - r) := by ring
  have h1 := abs_add_le (A - x * a) (x * (a - r))
  rw [_root_.abs_mul, abs_of_nonneg hx] at h1
  have h2 : x * |a - r| ≤ x * (r * eps + eta) := _root_.mul_le_mul_of_nonneg_left ha hx
  have h3 : |x * a| ≤ x * r + x * (r * eps + eta) := by
    have : x * a = x * r + x * (a - r) := by ring
    rw [this]
    refine (abs_add_le _ _).trans ?_
    rw [_root_.abs_mul x, _root_.abs_mul x, abs_of_nonneg hx, abs_of_nonneg hr]
    linarith
  have h4 : |x * a| * eps ≤ (x * r + x * (r * eps + eta)) * eps := by
    apply _root_.mul_le_mul_of_nonneg_right h3; rw [heps]; norm_num
  rw [e1]
  have hxr : 0 ≤ x * r := by positivity
  have hx' : 0 ≤ x * eta := by rw [heta]; positivity
  have e5 : (x * r + x * (r * eps + eta)) * eps = x * r * (eps + eps * eps) + x * eta * eps := by ring
  have e6 : x * (r * eps + eta) = x * r * eps + x * eta := by ring
  rw [e5] at h4; rw [e6] at h2
  have h7 : x * r * (eps + eps * eps) ≤ x * r * (2 / 2 ^ 24) := by
    apply _root_.mul_le_mul_of_nonneg_left _ hxr; rw [heps]; norm_num
  have h8 : x * eta * eps ≤ x * eta * 1 := by
    apply _root_.mul_le_mul_of_nonneg_left _ hx'; rw [heps]; norm_num
  have h9 : x * r * eps = x * r * (1 / 2 ^ 24) := by rw [heps]
  linarith

theorem split_sum {x h p : ℚ} {hx hh hp} (x0 : 0 ≤ x) (h0 : 0 ≤ h) (h1 : h ≤ pow2 126)
    (p0 : 0 ≤ p) (p1 : p ≤ pow2 126) (x1 : x ≤ pow2 126) :
    |((splitCell (fin x hx) (fin h hh) (fin p hp)).1.val + (splitCell (fin x hx) (fin h hh) (fin p hp)).2.val) - x| ≤
      x / 2 ^ 21 + 1 / 2 ^ 148 := by
  have heps : eps = 1 / 2 ^ 24 := rfl
  have heta : eta = 1 / 2 ^ 150 := rfl
  obtain ⟨g, -⟩ := g126
  have gl : OnGrid (2 * pow2 126) ∧ |2 * pow2 126| < pow2 128 := by decide +kernel
  unfold splitCell
  dsimp only
  obtain ⟨hq, eq, hle, -⟩ := rnd_between (x := h + p) grid_zero gl (by linarith) (by linarith)
  rw [add_fin, eq]
  by_cases ht : (1e-10 : F32) < fin (rndQ (h + p)) hq
  · rw [if_pos ht]
    obtain ⟨c, hc, ec, c0⟩ : ∃ c hc, (1e-10 : F32) = fin c hc ∧ 1 / 2 ^ 40 ≤ c :=
      ⟨(1e-10 : F32).val, by decide +kernel, by decide +kernel, by decide +kernel⟩
    rw [ec, fin_lt_fin] at ht
    have htp : 0 < rndQ (h + p) := by linarith [show (0 : ℚ) < 1 / 2 ^ 40 by positivity]
    -- the total is relatively exact
    have hbig : pow2 (-126) ≤ |h + p| := by
      rw [abs_of_nonneg (by linarith)]
      have e1 := rndQ_err (h + p)
      rw [abs_of_nonneg (by linarith : 0 ≤ h + p)] at e1
      have e2 := (abs_le.1 e1).2
      have : pow2 (-126) ≤ 1 / 2 ^ 50 := by decide +kernel
      rw [heps, heta] at e2
      have h3 : (h + p) * (1 / 2 ^ 24) ≤ h + p := by linarith
      have : (1 : ℚ) / 2 ^ 150 ≤ 1 / 2 ^ 50 := by norm_num
      have : (1 : ℚ) / 2 ^ 40 ≥ 4 * (1 / 2 ^ 50) := by norm_num
      linarith
    have hrel := abs_rndQ_sub_le_rel hbig
    rw [abs_of_nonneg (by linarith : 0 ≤ h + p), pow2_m24'] at hrel
    generalize rndQ (h + p) = t at *
    have hrat : |(h + p) / t - 1| ≤ 2 / 2 ^ 24 := by
      have e1 : (h + p) / t - 1 = -(t - (h + p)) / t := by field_simp; ring
      rw [e1, _root_.abs_div, abs_neg, abs_of_pos htp, div_le_iff₀ htp]
      have h3 := (abs_le.1 hrel).1
      rw [heps] at hrel h3
      have : h + p ≤ t * (3 / 2) := by linarith
      linarith
    have hsum1 : (h + p) / t ≤ 2 := by have := (abs_le.1 hrat).2; linarith [show (2 : ℚ) / 2 ^ 24 ≤ 1 by norm_num]
    have hh0 : 0 ≤ h / t := by positivity
    have hp0 : 0 ≤ p / t := by positivity
    have hadd : h / t + p / t = (h + p) / t := by ring
    have part : ∀ v hv, 0 ≤ v → v / t ≤ 2 → v ≤ pow2 126 → ∃ A : ℚ,
        (fin x hx * (fin v hv / fin t hq)).val = A ∧ |A - x * (v / t)| ≤ x * (v / t) * (3 / 2 ^ 24) + x * (2 * eta) + eta := by
      intro v hv v0 v2 v1
      rw [div_fin htp.ne']
      have gtwo : OnGrid (2 : ℚ) ∧ |(2 : ℚ)| < pow2 128 := by decide +kernel
      obtain ⟨ga, ea, la, ua⟩ := rnd_between (x := v / t) grid_zero gtwo (by positivity) v2
      rw [ea, mul_fin]
      obtain ⟨gb, eb, lb, ub⟩ := rnd_between (x := x * rndQ (v / t)) grid_zero gl (by positivity) (by
        rw [_root_.mul_comm 2]
        exact _root_.mul_le_mul x1 ua la (pow2_pos _).le)
      rw [eb]
      refine ⟨_, rfl, ?_⟩
      refine part_err x0 (by positivity) ?_ (rndQ_err _)
      have := rndQ_err (v / t)
      rw [abs_of_nonneg (by positivity : 0 ≤ v / t)] at this
      exact this
    obtain ⟨A, eA, hA⟩ := part h hh h0 (by linarith) h1
    obtain ⟨B, eB, hB⟩ := part p hp p0 (by linarith) p1
    rw [eA, eB]
    have e1 : A + B - x = (A - x * (h / t)) + (B - x * (p / t)) + x * ((h + p) / t - 1) := by rw [← hadd]; ring
    have a1 := abs_add_le ((A - x * (h / t)) + (B - x * (p / t))) (x * ((h + p) / t - 1))
    have a2 := abs_add_le (A - x * (h / t)) (B - x * (p / t))
    rw [_root_.abs_mul x, abs_of_nonneg x0] at a1
    have a3 : x * |(h + p) / t - 1| ≤ x * (2 / 2 ^ 24) := _root_.mul_le_mul_of_nonneg_left hrat x0
    rw [← e1] at a1
    have a4 : x * (h / t) * (3 / 2 ^ 24) + x * (p / t) * (3 / 2 ^ 24) ≤ x * (4 / 2 ^ 24) := by
      have : x * (h / t) * (3 / 2 ^ 24) + x * (p / t) * (3 / 2 ^ 24) = x * ((h + p) / t * (3 / 2 ^ 24)) := by rw [← hadd]; ring
      rw [this]
      apply _root_.mul_le_mul_of_nonneg_left _ x0
      have := (abs_le.1 hrat).2
      have : (h + p) / t ≤ 1 + 2 / 2 ^ 24 := by linarith
      calc (h + p) / t * (3 / 2 ^ 24) ≤ (1 + 2 / 2 ^ 24) * (3 / 2 ^ 24) := by
            apply _root_.mul_le_mul_of_nonneg_right this; norm_num
        _ ≤ 4 / 2 ^ 24 := by norm_num
    have a5 : x * (2 * eta) ≤ x * (1 / 2 ^ 24 / 4) := by
      apply _root_.mul_le_mul_of_nonneg_left _ x0; rw [heta]; norm_num
    have a6 : eta + eta ≤ 1 / 2 ^ 148 := by rw [heta]; norm_num
    have a7 : x / 2 ^ 21 = x * (8 / 2 ^ 24) := by ring
    have a8 : 0 ≤ x * (1 / 2 ^ 24) := by positivity
    linarith
  · rw [if_neg ht]
    obtain ⟨gh, eh⟩ : ∃ h, (0.5 : F32) = fin (1 / 2) h := ⟨by decide +kernel, by decide +kernel⟩
    rw [eh, mul_fin]
    obtain ⟨gb, eb, lb, ub⟩ := rnd_between (x := x * (1 / 2)) grid_zero gl (by positivity) (by linarith [pow2_pos 126])
    rw [eb]
    show |rndQ (x * (1 / 2)) + rndQ (x * (1 / 2)) - x| ≤ _
    have := rndQ_err (x * (1 / 2))
    rw [abs_of_nonneg (by positivity : 0 ≤ x * (1 / 2)), heps, heta] at this
    have e1 : rndQ (x * (1 / 2)) + rndQ (x * (1 / 2)) - x = 2 * (rndQ (x * (1 / 2)) - x * (1 / 2)) := by ring
    rw [e1, _root_.abs_mul, abs_of_pos (by norm_num : (0 : ℚ) < 2)]
    have a7 : x / 2 ^ 21 = x * (8 / 2 ^ 24) := by ring
    have a8 : 0 ≤ x * (1 / 2 ^ 24) := by positivity
    have a9 : (1 : ℚ) / 2 ^ 150 * 2 ≤ 1 / 2 ^ 148 := by norm_num
    linarith

/-- **C72: the harmonic and percussive parts add up to the input**, cell by cell, up to rounding: the error is at most
`x / 2^21 + 2^-148` for an input magnitude `x` in `[0, 2^126]`. -/
theorem C72_sum_partial (spec : List (List F32)) (n m margin : ℕ) (hs : Shape spec n m) (hn : 0 < n) (hm : 0 < m)
    (hv : ∀ fr ∈ spec, ∀ x ∈ fr, 0 ≤ x ∧ x ≤ rnd (pow2 126)) :
    ∃ h p, hpssDecompose spec margin = .ok (h, p) ∧ ∀ t < n, ∀ b < m, ∃ x hx, (spec.getD t []).getD b 0 = fin x hx ∧
      |(((h.getD t []).getD b 0).val + ((p.getD t []).getD b 0).val) - x| ≤ x / 2 ^ 21 + 1 / 2 ^ 148 := by
  obtain ⟨hp, b1, b2, e⟩ := hpss_last margin hs hn hm hv
  refine ⟨(hpssStep spec margin hp).1, (hpssStep spec margin hp).2, e, fun t ht b hb => ?_⟩
  have hlen : (spec.getD t []).length = m := by
    have ht' : t < spec.length := by rw [hs.1]; exact ht
    rw [List.getD_eq_getElem?_getD, List.getElem?_eq_getElem ht']
    exact hs.2 _ (List.getElem_mem ht')
  obtain ⟨c1, c2⟩ := ((step_cells spec margin hp).2 t (by rw [hs.1]; exact ht)).2 b (by rw [hlen]; exact hb)
  rw [c1, c2]
  obtain ⟨g, eg⟩ := g126
  have toFin : ∀ y : F32, 0 ≤ y ∧ y ≤ rnd (pow2 126) → ∃ v hv, y = fin v hv ∧ 0 ≤ v ∧ v ≤ pow2 126 := by
    rintro y ⟨y0, y1⟩
    rw [eg] at y1; rw [zero_def] at y0
    obtain ⟨v, hv, rfl, v0, v1⟩ := between_cases y0 y1
    exact ⟨v, hv, rfl, v0, v1⟩
  obtain ⟨x, hx, ex, x0, x1⟩ := toFin _ (orig_bound hv (i := t) (j := b) (by rw [hs.1]; exact ht) (by rw [hlen]; exact hb))
  obtain ⟨u, hu, eu, u0, u1⟩ := toFin _ (cell_bounded (medianTime_bounded b1 margin) t b)
  obtain ⟨w, hw, ew, w0, w1⟩ := toFin _ (cell_bounded (medianFreq_bounded b2 margin) t b)
  rw [ex, eu, ew]
  exact ⟨x, hx, rfl, split_sum x0 u0 u1 w0 w1 x1⟩

/-- a steady tone (column of ones) is split evenly with a click-free neighbourhood, and adds up again -/
example : ∃ h p, hpssDecompose [[1, 4, 1], [1, 5, 0]] 1 = .ok (h, p) ∧
    (h.getD 0 []).getD 1 0 + (p.getD 0 []).getD 1 0 = 4 := by
  refine ⟨_, _, rfl, ?_⟩
  decide +kernel

end Verif.Props
