/-
Property theorems C07: stereo to mono (src/preprocessing/channel_mixer.rs).
-/
import Verif.Model.ChannelMixer
import Verif.F32.More

namespace Verif.Props
open Verif Verif.Mixer Verif.F32

/-- **C07 (failure and length).** Mixing fails exactly when the channel lengths differ; otherwise it
returns one sample per frame and output `i` depends on input frame `i` only. -/
theorem C07_length (l r : List F32) (mode : Mode) :
    (l.length ≠ r.length → stereoToMono l r mode = R.err .invalidInput) ∧
    (l.length = r.length → ∃ out, stereoToMono l r mode = .ok out ∧ out.length = l.length ∧
      ∀ (i : ℕ) (x y : F32), l[i]? = some x → r[i]? = some y →
        ∃ z, out[i]? = some z ∧ stereoToMono [x] [y] mode = .ok [z]) := by
  constructor
  · intro h; simp [stereoToMono, h]
  · intro h
    by_cases h0 : l = []
    · subst h0
      exact ⟨[], by simp [stereoToMono, ← h], rfl, by intro i x y hx; simp at hx⟩
    · refine ⟨(l.zip r).map (fun p => mixOne mode p.1 p.2), by simp [stereoToMono, h, h0], by simp [h], ?_⟩
      intro i x y hx hy
      exact ⟨mixOne mode x y, by
        rw [List.getElem?_map, (List.getElem?_zip_eq_some (z := (x, y))).2 ⟨hx, hy⟩]; rfl,
        by simp [stereoToMono]⟩

theorem half_def : (0.5 : F32) = rnd (1 / 2) := by decide +kernel

theorem grid_half : OnGrid (1 / 2 : ℚ) ∧ |(1 / 2 : ℚ)| < pow2 128 := by decide +kernel

/-- A doubled grid value is on the grid. -/
theorem onGrid_double {a : ℚ} (h : OnGrid a) : OnGrid (2 * a) := by
  obtain ⟨m, e, hm, he, rfl⟩ := (onGrid_iff a).1 h
  refine (onGrid_iff _).2 ⟨m, e + 1, hm, by omega, ?_⟩
  have : pow2 1 = 2 := by rw [pow2_eq]; norm_num
  rw [pow2_add, this]; ring

theorem avg_between {x y : F32} (hx : x.isFinite = true) (hy : y.isFinite = true)
    (hs : (x + y).isFinite = true) (h : x ≤ y) : x ≤ (x + y) * 0.5 ∧ (x + y) * 0.5 ≤ y := by
  obtain ⟨a, ha, rfl⟩ := isFinite_iff.1 hx
  obtain ⟨b, hb, rfl⟩ := isFinite_iff.1 hy
  obtain ⟨s, hs', e⟩ := isFinite_iff.1 hs
  have hab := fin_le_fin.1 h
  rw [e, half_def, rnd_val grid_half, mul_fin]
  have l : fin (rndQ (a + b)) ⟨onGrid_rndQ _, ?_⟩ = fin s hs' := ?_
  · have hsv : rndQ (a + b) = s := by injection l
    have h1 : 2 * a ≤ s := by rw [← hsv]; exact le_rndQ_of_onGrid (onGrid_double ha.1) (by linarith)
    have h2 : s ≤ 2 * b := by rw [← hsv]; exact rndQ_le_of_onGrid (onGrid_double hb.1) (by linarith)
    exact ⟨fin_le_rnd (by linarith), rnd_le_fin (by linarith)⟩
  · rw [add_fin] at e
    unfold rnd at e
    split_ifs at e with h1 h2
    exact abs_lt.2 ⟨not_le.1 h2, not_le.1 h1⟩
  · rw [add_fin] at e
    unfold rnd at e
    split_ifs at e with h1 h2
    exact e

/-- **C07 (averaging modes).** The mixed sample lies between the two inputs, hence never exceeds the
louder one, whenever the sum of the two channels does not overflow `f32` (the claim's range of
amplitudes).  Outside that range it is false: `C07_overflow`. -/
theorem C07_between (x y : F32) (mode : Mode) (hm : mode ≠ .dominant)
    (hx : x.isFinite = true) (hy : y.isFinite = true) (hs : (x + y).isFinite = true) :
    ∃ z, stereoToMono [x] [y] mode = .ok [z] ∧ ((x ≤ z ∧ z ≤ y) ∨ (y ≤ z ∧ z ≤ x)) ∧
      (z.abs ≤ x.abs ∨ z.abs ≤ y.abs) := by
  have e : mixOne mode x y = (x + y) * 0.5 := by cases mode <;> first | rfl | exact absurd rfl hm
  have hb : (x ≤ (x + y) * 0.5 ∧ (x + y) * 0.5 ≤ y) ∨ (y ≤ (x + y) * 0.5 ∧ (x + y) * 0.5 ≤ x) := by
    rcases le_total (ne_nan_of_isFinite hx) (ne_nan_of_isFinite hy) with h | h
    · exact .inl (avg_between hx hy hs h)
    · rw [F32.add_comm] at hs ⊢
      exact .inr (avg_between hy hx hs h)
  refine ⟨mixOne mode x y, by simp [stereoToMono], e ▸ hb, ?_⟩
  rw [e]
  generalize (x + y) * 0.5 = z at hb
  obtain ⟨a, ha, rfl⟩ := isFinite_iff.1 hx
  obtain ⟨b, hb', rfl⟩ := isFinite_iff.1 hy
  have : ∃ v hv, z = fin v hv ∧ ((a ≤ v ∧ v ≤ b) ∨ (b ≤ v ∧ v ≤ a)) := by
    rcases hb with ⟨h1, h2⟩ | ⟨h1, h2⟩
    · obtain ⟨v, hv, e, h⟩ := between_cases h1 h2; exact ⟨v, hv, e, .inl h⟩
    · obtain ⟨v, hv, e, h⟩ := between_cases h1 h2; exact ⟨v, hv, e, .inr h⟩
  obtain ⟨v, hv, rfl, h⟩ := this
  simp only [abs_fin, fin_le_fin]
  rcases h with ⟨h1, h2⟩ | ⟨h1, h2⟩
  · rcases abs_cases v with ⟨e1, _⟩ | ⟨e1, _⟩
    · right; rw [e1]; exact h2.trans (le_abs_self b)
    · left; rw [e1]; exact _root_.le_trans (by linarith) (neg_le_abs a)
  · rcases abs_cases v with ⟨e1, _⟩ | ⟨e1, _⟩
    · left; rw [e1]; exact h2.trans (le_abs_self a)
    · right; rw [e1]; exact _root_.le_trans (by linarith) (neg_le_abs b)

theorem abs_rndQ_sub_le_mix (q : ℚ) : |rndQ q - q| ≤ |q| * pow2 (-24) + pow2 (-150) := by
  have h0 := _root_.abs_nonneg q
  have h1 := pow2_pos (-24)
  have h2 := pow2_pos (-150)
  rcases _root_.le_total (pow2 (-126)) |q| with h | h
  · have := abs_rndQ_sub_le_rel h; linarith
  · have := abs_rndQ_sub_le_sub h
    have h3 := _root_.mul_nonneg h0 h1.le
    linarith

/-- **C07 (averaging modes, accuracy).** The mixed sample is the mean of the two channels up to
rounding: relative error below `2^-22` plus at most the smallest subnormal. -/
theorem C07_average (x y : F32) (mode : Mode) (hm : mode ≠ .dominant)
    (hx : x.isFinite = true) (hy : y.isFinite = true) (hs : (x + y).isFinite = true) :
    ∃ z, stereoToMono [x] [y] mode = .ok [z] ∧ z.isFinite = true ∧
      |z.val - (x.val + y.val) / 2| ≤ |(x.val + y.val) / 2| * pow2 (-22) + pow2 (-148) := by
  have e : mixOne mode x y = (x + y) * 0.5 := by cases mode <;> first | rfl | exact absurd rfl hm
  refine ⟨mixOne mode x y, by simp [stereoToMono], ?_⟩
  rw [e]
  obtain ⟨a, ha, rfl⟩ := isFinite_iff.1 hx
  obtain ⟨b, hb, rfl⟩ := isFinite_iff.1 hy
  obtain ⟨s, hs', e⟩ := isFinite_iff.1 hs
  have hsv : s = rndQ (a + b) := by
    rw [add_fin] at e
    unfold rnd at e
    split_ifs at e with h1 h2
    injection e with e'
    exact e'.symm
  rw [e, half_def, rnd_val grid_half, mul_fin]
  have hle : |s * (1 / 2)| ≤ |s| := by
    rw [_root_.abs_mul]
    have := _root_.abs_nonneg s
    rw [abs_of_pos (by norm_num : (0:ℚ) < 1 / 2)]
    linarith
  obtain ⟨hq, e2, _⟩ := rnd_finite_of_abs_le (b := |s|) (abs_aux hs') hle
  rw [e2]
  refine ⟨rfl, ?_⟩
  show |rndQ (s * (1 / 2)) - (a + b) / 2| ≤ |(a + b) / 2| * pow2 (-22) + pow2 (-148)
  have h1 := abs_rndQ_sub_le_mix (a + b)
  rw [← hsv] at h1
  have h2 := abs_rndQ_sub_le_mix (s * (1 / 2))
  have h3 : |(a + b) / 2| = |a + b| / 2 := by rw [_root_.abs_div, abs_two]
  have h4 : |s * (1 / 2)| = |s| / 2 := by
    rw [_root_.abs_mul, abs_of_pos (by norm_num : (0:ℚ) < 1 / 2)]; ring
  rw [h4] at h2
  rw [h3]
  have h5 : |s| ≤ |a + b| + |s - (a + b)| := by
    have := _root_.abs_add_le (a + b) (s - (a + b)); simpa using this
  have h6 : |rndQ (s * (1 / 2)) - (a + b) / 2| ≤ |rndQ (s * (1 / 2)) - s * (1 / 2)| + |s - (a + b)| / 2 := by
    have := _root_.abs_add_le (rndQ (s * (1 / 2)) - s * (1 / 2)) ((s - (a + b)) / 2)
    rw [_root_.abs_div, abs_two] at this
    refine _root_.le_trans (_root_.le_of_eq ?_) this
    congr 1; ring
  have e1 : pow2 (-24) = 1 / 2 ^ 24 := by rw [pow2_eq]; norm_num
  have e3 : pow2 (-22) = 1 / 2 ^ 22 := by rw [pow2_eq]; norm_num
  have e4 : pow2 (-148) = 4 * pow2 (-150) := by
    have : (4 : ℚ) = pow2 2 := by rw [pow2_eq]; norm_num
    rw [this, ← pow2_add]; norm_num
  have h7 := pow2_pos (-150)
  have h8 := _root_.abs_nonneg (a + b)
  rw [e1] at h1 h2
  rw [e3, e4]
  nlinarith

/-- **C07 (identical channels).** Mixing a channel with itself returns the channel, in every
mode, as long as doubling a sample does not overflow. -/
theorem C07_identity (l : List F32) (mode : Mode)
    (h : ∀ x ∈ l, x.isFinite = true ∧ (x + x).isFinite = true) : stereoToMono l l mode = .ok l := by
  by_cases h0 : l = []
  · simp [stereoToMono, h0]
  · simp only [stereoToMono, ne_eq, not_true_eq_false, if_false, h0]
    congr 1
    have : ∀ x ∈ l, mixOne mode x x = x := by
      intro x hx
      have ha := avg_between (h x hx).1 (h x hx).1 (h x hx).2 (le_refl (ne_nan_of_isFinite (h x hx).1))
      have e := le_antisymm ha.2 ha.1
      cases mode <;> simp only [mixOne, e, ite_self]
    clear h h0
    induction l with
    | nil => rfl
    | cons x l ih =>
      simp only [List.zip_cons_cons, List.map_cons]
      rw [this x (by simp), ih (fun z hz => this z (by simp [hz]))]

/-- **C07 (dominant mode).** Each output is one of the two inputs, and for non-NaN inputs one of
largest magnitude, the left one on a tie. -/
theorem C07_dominant (x y : F32) :
    ∃ z, stereoToMono [x] [y] .dominant = .ok [z] ∧ (z = x ∨ z = y) ∧
      (x ≠ F32.nan → y ≠ F32.nan →
        x.abs ≤ z.abs ∧ y.abs ≤ z.abs ∧ (x.abs = y.abs → z = x)) := by
  refine ⟨mixOne .dominant x y, by simp [stereoToMono], ?_, ?_⟩
  · unfold mixOne; dsimp only; split_ifs <;> simp
  · intro hx hy
    have hx' := abs_ne_nan hx
    have hy' := abs_ne_nan hy
    unfold mixOne
    dsimp only
    split_ifs with h
    · exact ⟨le_refl hx', h, fun _ => rfl⟩
    · have := lt_of_not_le hx' hy' h
      exact ⟨le_of_lt this, le_refl hy', fun e => by rw [e] at this; exact absurd this (lt_irrefl _)⟩

/-- **C07 (range is needed).** The amplitude restriction cannot be dropped: when the sum of the channels overflows, mixing amplifies: `2^127` mixed with itself
gives infinity. -/
theorem C07_overflow : stereoToMono [rnd (pow2 127)] [rnd (pow2 127)] .mono = .ok [F32.inf false] := by
  decide +kernel

/-! Non-vacuity. -/
example : stereoToMono [1, -0.5] [0.5, -0.25] .mono = .ok [0.75, -0.375] := by decide +kernel
example : stereoToMono [1, -0.5] [0.5, -0.75] .dominant = .ok [1, -0.75] := by decide +kernel
example : (1 : F32).isFinite = true ∧ (0.3 : F32).isFinite = true ∧ (1 + 0.3 : F32).isFinite = true := by
  decide +kernel
example : ∀ x ∈ ([1, -0.5, 0.3] : List F32), x.isFinite = true ∧ (x + x).isFinite = true := by
  decide +kernel

end Verif.Props
