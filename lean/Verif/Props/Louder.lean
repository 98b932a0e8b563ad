/-
Property theorems C126: a louder copy of a recording is never measured as quieter (src/preprocessing/normalization.rs: the
metadata of `normalize`, and `calculate_lufs`).
-/
import Verif.Props.Loudness
import Verif.Props.NoveltyRise

namespace Verif.Props
open Verif Verif.Norm F32

/-! ### Specification -/

/-- sample by sample at least as large -/
def AtLeast (x x' : List F32) : Prop := List.Forall₂ (fun a b => a.abs ≤ b.abs) x x'

/-- the logarithm is increasing -/
def LogUp (M : Libm) : Prop := ∀ a b : F32, 0 < a → a ≤ b → M.log10 a ≤ M.log10 b

/-! ### Lemmas -/

theorem sq_abs (a : F32) : a * a = a.abs * a.abs := by
  rcases a with _ | (_ | _) | ⟨v, hv⟩
  · rfl
  · rfl
  · rfl
  · show fin v hv * fin v hv = fin |v| _ * fin |v| _
    rw [mul_fin, mul_fin, abs_mul_abs_self]

theorem abs_le_ne_nan {a b : F32} (h : a.abs ≤ b.abs) : a ≠ nan ∧ b ≠ nan := by
  constructor <;> rintro rfl
  · exact ne_nan_left h rfl
  · exact ne_nan_right h rfl

theorem atLeast_gain {x : List F32} {g : F32} (hx : ∀ v ∈ x, v.isFinite = true) (hg : 1 ≤ g) (hf : g.isFinite = true) :
    AtLeast x (x.map (· * g)) := by
  induction x with
  | nil => exact .nil
  | cons v x ih =>
    refine .cons ?_ (ih (fun w hw => hx w (List.mem_cons_of_mem _ hw)))
    obtain ⟨q, hq, rfl⟩ := isFinite_iff.1 (hx v List.mem_cons_self)
    obtain ⟨c, hc, rfl⟩ := isFinite_iff.1 hf
    rw [one_def, fin_le_fin] at hg
    rw [abs_mul]
    show fin |q| _ ≤ fin |q| _ * fin |c| _
    rw [mul_fin]
    have hq' : OnGrid |q| ∧ |(|q|)| < pow2 128 := ⟨onGrid_abs hq.1, by rw [abs_abs]; exact hq.2⟩
    rw [← rnd_val hq']
    refine rnd_mono ?_
    rw [abs_of_nonneg (by linarith : (0 : ℚ) ≤ c)]
    nlinarith [_root_.abs_nonneg q]

theorem map_getD_of {f : F32 → F32} {l : List F32} {i : ℕ} (hi : i < l.length) : (l.map f).getD i 0 = f l[i] := by
  simp [List.getD, hi]

theorem atLeast_sum {x x' : List F32} (h : AtLeast x x') :
    0 ≤ F32.sum (x.map (fun v => v * v)) ∧ F32.sum (x.map (fun v => v * v)) ≤ F32.sum (x'.map (fun v => v * v)) := by
  have hl := h.length_eq
  constructor
  · refine sum_nonneg fun y hy => ?_
    obtain ⟨v, hv, rfl⟩ := List.mem_map.1 hy
    refine Norm.sq_nonneg v ?_
    obtain ⟨i, hi, rfl⟩ := List.getElem_of_mem hv
    exact (abs_le_ne_nan (List.forall₂_iff_get.1 h |>.2 i hi (hl ▸ hi))).1
  · refine sum_le_sum (by simpa using hl) fun i hi => ?_
    rw [List.length_map] at hi
    have hh := List.forall₂_iff_get.1 h |>.2 i hi (hl ▸ hi)
    simp only [List.get_eq_getElem] at hh
    have n := abs_le_ne_nan hh
    rw [map_getD_of (f := fun v : F32 => v * v) hi, map_getD_of (f := fun v : F32 => v * v) (hl ▸ hi)]
    refine ⟨Norm.sq_nonneg _ n.1, ?_⟩
    rw [sq_abs x[i], sq_abs (x'[i]'(hl ▸ hi))]
    exact sq_mono (F32.abs_nonneg n.1) hh

theorem div_count_ne_nan {a : F32} {n : ℕ} (ha : 0 ≤ a) (hn : 0 < n) (hN : n ≤ 2 ^ 24) : a / F32.ofNat n ≠ nan := by
  have hq : (0 : ℚ) < n := by exact_mod_cast hn
  rw [ofNat_exact hN]
  rcases nonneg_cases ha with rfl | ⟨v, hv, rfl, -⟩
  · rw [inf_div_fin]; simp
  · rw [div_fin hq.ne']; exact rnd_ne_nan _

theorem atLeast_meanSq {x x' : List F32} (h : AtLeast x x') (h0 : x ≠ []) (hl : x.length ≤ 2 ^ 24) :
    0 ≤ meanSq x ∧ meanSq x ≤ meanSq x' := by
  have hs := atLeast_sum h
  have hp : 0 < x.length := List.length_pos_iff.2 h0
  unfold meanSq
  rw [← h.length_eq]
  have n1 := div_count_ne_nan hs.1 hp hl
  have n2 := div_count_ne_nan (F32.le_trans hs.1 hs.2) hp hl
  refine ⟨?_, div_le_div_right hs.2 (ofNat_pos hp) n1 n2⟩
  have e : (0 : F32) / F32.ofNat x.length = 0 := by
    have hq : (0 : ℚ) < x.length := by exact_mod_cast hp
    rw [ofNat_exact hl, zero_def, div_fin hq.ne', zero_div, rnd_zero_eq]
  have := div_le_div_right hs.1 (ofNat_pos hp) (by rw [e]; decide +kernel) n1
  rwa [e] at this

theorem atLeast_peak {x x' : List F32} (h : AtLeast x x') : 0 ≤ peakOf x ∧ peakOf x ≤ peakOf x' := by
  unfold peakOf
  have z : (0 : F32) ≠ nan := by decide +kernel
  have s := foldMax_spec (l := x.map F32.abs) z
  have s' := foldMax_spec (l := x'.map F32.abs) z
  refine ⟨s.1, ?_⟩
  rcases s.2.2.2 with e | e
  · rw [e]; exact s'.1
  · obtain ⟨v, hv, ev⟩ := List.mem_map.1 e
    rw [← ev]
    obtain ⟨i, hi, rfl⟩ := List.getElem_of_mem hv
    have hi' : i < x'.length := h.length_eq ▸ hi
    have hh := List.forall₂_iff_get.1 h |>.2 i hi hi'
    exact F32.le_trans hh (s'.2.2.1 _ (List.mem_map.2 ⟨_, List.getElem_mem hi', rfl⟩) (ne_nan_right hh))

theorem atLeast_zero {x : List F32} (hn : ∀ v ∈ x, v ≠ nan) (h : peakOf x ≤ 0) : AtLeast x (List.replicate x.length 0) := by
  have s := foldMax_spec (l := x.map F32.abs) (a := 0) (by decide +kernel)
  have hh : ∀ v ∈ x, v.abs ≤ 0 := fun v hv =>
    F32.le_trans (s.2.2.1 _ (List.mem_map_of_mem hv) (abs_ne_nan (hn v hv))) h
  clear s h
  induction x with
  | nil => exact .nil
  | cons v x ih =>
    refine .cons ?_ (ih (fun w hw => hn w (List.mem_cons_of_mem _ hw)) (fun w hw => hh w (List.mem_cons_of_mem _ hw)))
    exact F32.le_trans (hh v List.mem_cons_self) (by decide +kernel)

theorem meanSq_zero {n : ℕ} (h0 : n ≠ 0) (hl : n ≤ 2 ^ 24) : meanSq (List.replicate n 0) = 0 := by
  unfold meanSq
  rw [List.map_replicate, show (0 : F32) * 0 = 0 by decide +kernel, List.length_replicate]
  have hs : ∀ m, F32.sum (List.replicate m 0) = 0 := by
    intro m
    unfold F32.sum
    induction m with
    | zero => rfl
    | succ m ih => rw [List.replicate_succ, List.foldl_cons, show (0 : F32) + 0 = 0 by decide +kernel, ih]
  have hq : (0 : ℚ) < n := by exact_mod_cast Nat.pos_of_ne_zero h0
  rw [hs, ofNat_exact hl, zero_def, div_fin hq.ne', zero_div, rnd_zero_eq]

theorem mul_pos_ne_nan {c : ℚ} {hc} (h : 0 < c) {t : F32} (ht : t ≠ nan) : fin c hc * t ≠ nan := by
  rcases t with _ | s | ⟨t, ht⟩
  · exact absurd rfl ht
  · rw [fin_mul_inf, if_neg h.ne']; simp
  · rw [mul_fin]; exact rnd_ne_nan _

theorem db_mono {M : Libm} (hM : LogUp M) {a b : F32} (ha : 0 < a) (h : a ≤ b) : 20 * M.log10 a ≤ 20 * M.log10 b := by
  obtain ⟨g, e⟩ : ∃ g, (20 : F32) = fin 20 g := ⟨by decide +kernel, by decide +kernel⟩
  have hl := hM a b ha h
  refine mul_le_mul_of_nonneg_left hl (by decide +kernel) ?_ ?_ <;> rw [e]
  · exact mul_pos_ne_nan (by norm_num) (ne_nan_left hl)
  · exact mul_pos_ne_nan (by norm_num) (ne_nan_right hl)

/-! ### Theorems -/

/-- **C126, peak and RMS.** The reported peak and RMS levels of a recording that is sample by sample at least as large are at
least as high. -/
theorem C126_levels (M : Libm) (hM : LogUp M) (x x' : List F32) (h : AtLeast x x') (hl : x.length ≤ 2 ^ 24) (c : Config)
    (sr : F32) (hc : c.method = .peak ∨ c.method = .rms) (out out' : List F32) (m m' : Meta)
    (e : normalize M x c sr = .ok (out, m)) (e' : normalize M x' c sr = .ok (out', m')) :
    (m.peakDb = inf true ∨ m.peakDb ≤ m'.peakDb) ∧ (c.method = .rms → m.rmsDb = inf true ∨ m.rmsDb ≤ m'.rmsDb) := by
  have hp := atLeast_peak h
  have hE : (0 : F32) < EPS := by decide +kernel
  have up : ∀ {a b : F32}, ¬ a ≤ EPS → 0 ≤ a → a ≤ b → ¬ b ≤ EPS ∧ 0 < a := fun {a b} n a0 ab => by
    have : EPS < a := lt_of_not_le (by decide +kernel) (ne_nan_left ab) n
    exact ⟨not_le_of_lt (F32.lt_of_lt_of_le this ab), F32.lt_trans hE this⟩
  unfold normalize at e e'
  rcases hc with hc | hc
  · rw [hc] at e e'
    refine ⟨?_, fun hh => by rw [hc] at hh; cases hh⟩
    simp only [normalizePeak] at e e'
    by_cases h0 : x = []
    · rw [if_pos h0] at e; cases e
    have h0' : x' ≠ [] := by rintro rfl; exact h0 (by cases h; rfl)
    rw [if_neg h0] at e
    rw [if_neg h0'] at e'
    by_cases q : peakOf x ≤ EPS
    · rw [if_pos q] at e; injection e with e; injection e with _ e; rw [← e]; exact .inl rfl
    obtain ⟨q', p0⟩ := up q hp.1 hp.2
    rw [if_neg q] at e
    rw [if_neg q'] at e'
    injection e with e; injection e with _ e
    injection e' with e'; injection e' with _ e'
    rw [← e, ← e']
    exact .inr (db_mono hM p0 hp.2)
  · rw [hc] at e e'
    simp only [normalizeRms] at e e'
    by_cases h0 : x = []
    · rw [if_pos h0] at e; cases e
    have h0' : x' ≠ [] := by rintro rfl; exact h0 (by cases h; rfl)
    rw [if_neg h0] at e
    rw [if_neg h0'] at e'
    by_cases q : F32.sqrt (meanSq x) ≤ EPS
    · rw [if_pos q] at e; injection e with e; injection e with _ e; rw [← e]; exact ⟨.inl rfl, fun _ => .inl rfl⟩
    have hm := atLeast_meanSq h h0 hl
    have hr := sqrt_mono hm.1 hm.2
    have hr0 : 0 ≤ F32.sqrt (meanSq x) := by
      have := sqrt_mono (a := 0) (by decide +kernel) hm.1
      rwa [show F32.sqrt 0 = 0 by decide +kernel] at this
    obtain ⟨q', p0⟩ := up q hr0 hr
    rw [if_neg q] at e
    rw [if_neg q'] at e'
    have em : m.peakDb = 20 * M.log10 (peakOf x) ∧ m.rmsDb = 20 * M.log10 (F32.sqrt (meanSq x)) := by
      split_ifs at e <;> (injection e with e; injection e with _ e; rw [← e]; exact ⟨rfl, rfl⟩)
    have em' : m'.peakDb = 20 * M.log10 (peakOf x') ∧ m'.rmsDb = 20 * M.log10 (F32.sqrt (meanSq x')) := by
      split_ifs at e' <;> (injection e' with e'; injection e' with _ e'; rw [← e']; exact ⟨rfl, rfl⟩)
    rw [em.1, em.2, em'.1, em'.2]
    refine ⟨.inr (db_mono hM ?_ hp.2), fun _ => .inr (db_mono hM p0 hr)⟩
    by_contra hz
    have hz' : peakOf x ≤ 0 := by
      by_contra hn
      exact hz (lt_of_not_le (by decide +kernel) (ne_nan_left hp.2) hn)
    have hq := (atLeast_meanSq (atLeast_zero (fun v hv => ?_) hz') h0 hl).2
    · rw [meanSq_zero (by simpa using h0) (by simpa using hl)] at hq
      have := sqrt_mono hm.1 hq
      rw [show F32.sqrt 0 = 0 by decide +kernel] at this
      exact q (F32.le_trans this (by decide +kernel))
    · obtain ⟨i, hi, rfl⟩ := List.getElem_of_mem hv
      exact (abs_le_ne_nan (List.forall₂_iff_get.1 h |>.2 i hi (h.length_eq ▸ hi))).1

/-- non-vacuity: full scale against half scale -/
example : AtLeast [0.5, -0.25] [1, -0.5] := by
  refine .cons (by decide +kernel) (.cons (by decide +kernel) .nil)

/-- amplifying makes a recording louder -/
theorem C126_gain (M : Libm) (hM : LogUp M) (x : List F32) (hx : ∀ v ∈ x, v.isFinite = true) (hl : x.length ≤ 2 ^ 24) (g : F32)
    (hg : 1 ≤ g) (hf : g.isFinite = true) (c : Config) (sr : F32) (hc : c.method = .peak ∨ c.method = .rms)
    (out out' : List F32) (m m' : Meta) (e : normalize M x c sr = .ok (out, m))
    (e' : normalize M (x.map (· * g)) c sr = .ok (out', m')) :
    (m.peakDb = inf true ∨ m.peakDb ≤ m'.peakDb) ∧ (c.method = .rms → m.rmsDb = inf true ∨ m.rmsDb ≤ m'.rmsDb) :=
  C126_levels M hM x _ (atLeast_gain hx hg hf) hl c sr hc out out' m m' e e'

example : (1 : F32) ≤ 1.5 ∧ (1.5 : F32).isFinite = true ∧ LogUp lowRateLibm :=
  ⟨by decide +kernel, by decide +kernel, fun _ _ _ _ => (by decide +kernel : (0 : F32) ≤ 0)⟩

theorem fin_add_ne_nan {t : F32} (ht : t ≠ nan) : -0.691 + t ≠ nan := by
  obtain ⟨g6, e6⟩ : ∃ g, (-0.691 : F32) = fin (-0.691 : F32).val g := ⟨by decide +kernel, by decide +kernel⟩
  rw [e6]
  rcases t with _ | s | ⟨t, ht⟩
  · exact absurd rfl ht
  · rw [fin_add_inf]; simp
  · rw [add_fin]; exact rnd_ne_nan _

theorem lufs_value {M : Libm} {x : List F32} {sr v : F32} (h : calculateLufs M x sr = .ok v) :
    0 < (sr * 400 / 1000).toUsize ∧ x ≠ [] ∧
    ∃ lp, lp = loudPowers (M.powf 10 ((-70 + 0.691) / 10)) (sr * 400 / 1000).toUsize ((KFilter.new M sr).run x) ∧
      ((lp = [] ∧ v = inf true) ∨ (lp ≠ [] ∧ ¬ F32.sum lp / F32.ofNat lp.length ≤ EPS ∧
        v = -0.691 + 10 * M.log10 (F32.sum lp / F32.ofNat lp.length))) := by
  unfold calculateLufs at h
  by_cases h0 : x = []
  · rw [if_pos h0] at h; cases h
  by_cases hs : sr ≤ 0
  · rw [if_neg h0, if_pos hs] at h; cases h
  rw [if_neg h0, if_neg hs] at h
  dsimp only at h
  generalize (sr * 400 / 1000).toUsize = b at h ⊢
  by_cases hb : b = 0
  · rw [if_pos hb] at h; cases h
  rw [if_neg hb] at h
  generalize (KFilter.new M sr).run x = y at h ⊢
  rw [measured_blocks (Nat.pos_of_ne_zero hb) y, R.ok_bind] at h
  refine ⟨Nat.pos_of_ne_zero hb, h0, _, rfl, ?_⟩
  by_cases hn : (List.range ((y.length + b - 1) / b)).map (fun k => powerOf (blockAt b y k)) = []
  · rw [if_pos hn] at h; cases h
  rw [if_neg hn] at h
  have hlp : loudPowers (M.powf 10 ((-70 + 0.691) / 10)) b y =
    ((List.range ((y.length + b - 1) / b)).map (fun k => powerOf (blockAt b y k))).filter
      (fun e => decide (M.powf 10 ((-70 + 0.691) / 10) < e)) := rfl
  rw [← hlp] at h
  generalize loudPowers (M.powf 10 ((-70 + 0.691) / 10)) b y = lp at h ⊢
  by_cases hl : lp = []
  · rw [if_pos hl] at h; injection h with h; exact .inl ⟨hl, h.symm⟩
  rw [if_neg hl] at h
  by_cases hE : F32.sum lp / F32.ofNat lp.length ≤ EPS
  · rw [if_pos hE] at h; cases h
  rw [if_neg hE] at h; injection h with h
  exact .inr ⟨hl, hE, h.symm⟩

theorem atLeast_block {y y' : List F32} (h : AtLeast y y') (b k : ℕ) : AtLeast (blockAt b y k) (blockAt b y' k) :=
  List.forall₂_take _ (List.forall₂_drop _ h)

theorem block_nonempty {b k : ℕ} {y : List F32} (hb : 0 < b) (hk : k < (y.length + b - 1) / b) : blockAt b y k ≠ [] := by
  have := (Nat.lt_div_iff_mul_lt hb).1 hk
  have e : b * k = k * b := Nat.mul_comm _ _
  unfold blockAt
  rw [Ne, ← List.length_eq_zero_iff, List.length_take, List.length_drop]
  omega

/-- **C126, loudness (partial).** Full claim: a recording that is louder sample by sample measures at least as many LUFS.  Here:
when the filtered signal is louder sample by sample and all blocks of the quieter one are above the gate.  Missing: blocks at the
gate (`C126_violated`). -/
theorem C126_lufs_partial (M : Libm) (hM : LogUp M) (x x' : List F32) (sr v v' : F32)
    (h : AtLeast ((KFilter.new M sr).run x) ((KFilter.new M sr).run x')) (hl : x.length ≤ 2 ^ 24)
    (hg : ∀ k < (x.length + (sr * 400 / 1000).toUsize - 1) / (sr * 400 / 1000).toUsize,
      M.powf 10 ((-70 + 0.691) / 10) < powerOf (blockAt (sr * 400 / 1000).toUsize ((KFilter.new M sr).run x) k))
    (e : calculateLufs M x sr = .ok v) (e' : calculateLufs M x' sr = .ok v') : v ≤ v' := by
  obtain ⟨hb, h0, lp, elp, hv⟩ := lufs_value e
  obtain ⟨-, -, lp', elp', hv'⟩ := lufs_value e'
  have hlen : ((KFilter.new M sr).run x).length = x.length := run_length _ _
  generalize (KFilter.new M sr).run x = y at *
  generalize (KFilter.new M sr).run x' = y' at *
  generalize (sr * 400 / 1000).toUsize = b at *
  generalize M.powf 10 ((-70 + 0.691) / 10) = g at *
  rw [← hlen] at hg
  have hle : ∀ k < (y.length + b - 1) / b, 0 ≤ powerOf (blockAt b y k) ∧
      powerOf (blockAt b y k) ≤ powerOf (blockAt b y' k) := fun k hk =>
    atLeast_meanSq (atLeast_block h b k) (block_nonempty hb hk) (by
      unfold blockAt
      rw [List.length_take, List.length_drop]
      omega)
  have e1 : lp = (List.range ((y.length + b - 1) / b)).map (fun k => powerOf (blockAt b y k)) := by
    rw [elp]; unfold loudPowers
    refine List.filter_eq_self.2 fun a ha => ?_
    obtain ⟨k, hk, rfl⟩ := List.mem_map.1 ha
    exact decide_eq_true (hg k (List.mem_range.1 hk))
  have e2 : lp' = (List.range ((y.length + b - 1) / b)).map (fun k => powerOf (blockAt b y' k)) := by
    rw [elp']; unfold loudPowers
    rw [← h.length_eq]
    refine List.filter_eq_self.2 fun a ha => ?_
    obtain ⟨k, hk, rfl⟩ := List.mem_map.1 ha
    exact decide_eq_true (F32.lt_of_lt_of_le (hg k (List.mem_range.1 hk)) (hle k (List.mem_range.1 hk)).2)
  have hnb : 0 < (y.length + b - 1) / b := by
    refine Nat.div_pos ?_ hb
    have : 0 < x.length := List.length_pos_iff.2 h0
    omega
  have hnb' : (y.length + b - 1) / b ≤ 2 ^ 24 := by
    refine Nat.div_le_of_le_mul ?_
    have h2 : 1 ≤ y.length := by rw [hlen]; exact List.length_pos_iff.2 h0
    have h3 : y.length ≤ 2 ^ 24 := hlen ▸ hl
    obtain ⟨n, hn⟩ : ∃ n, y.length = n + 1 := ⟨y.length - 1, by omega⟩
    obtain ⟨d, rfl⟩ : ∃ d, b = d + 1 := ⟨b - 1, by omega⟩
    calc y.length + (d + 1) - 1 = n + 1 + d := by omega
      _ ≤ (d + 1) * (n + 1) := by nlinarith
      _ ≤ (d + 1) * 2 ^ 24 := Nat.mul_le_mul_left _ (hn ▸ h3)
  have hl1 : lp.length = (y.length + b - 1) / b := by rw [e1, List.length_map, List.length_range]
  have hl2 : lp'.length = (y.length + b - 1) / b := by rw [e2, List.length_map, List.length_range]
  have n1 : lp ≠ [] := by rw [← List.length_pos_iff, hl1]; exact hnb
  have n2 : lp' ≠ [] := by rw [← List.length_pos_iff, hl2]; exact hnb
  obtain ⟨-, q1, rfl⟩ := hv.resolve_left (fun hh => n1 hh.1)
  obtain ⟨-, q2, rfl⟩ := hv'.resolve_left (fun hh => n2 hh.1)
  have s0 : 0 ≤ F32.sum lp := by
    refine sum_nonneg fun a ha => ?_
    rw [e1] at ha
    obtain ⟨k, hk, rfl⟩ := List.mem_map.1 ha
    exact (hle k (List.mem_range.1 hk)).1
  have s1 : F32.sum lp ≤ F32.sum lp' := by
    refine sum_le_sum (hl1.trans hl2.symm) fun i hi => ?_
    rw [hl1] at hi
    have hi' : i < (List.range ((y.length + b - 1) / b)).length := by simpa using hi
    have a1 : lp.getD i 0 = powerOf (blockAt b y i) := by rw [e1]; exact range_map_get _ _ hi
    have a2 : lp'.getD i 0 = powerOf (blockAt b y' i) := by rw [e2]; exact range_map_get _ _ hi
    rw [a1, a2]; exact hle i hi
  rw [hl2]
  rw [hl1] at q1 ⊢
  rw [hl2] at q2
  have m1 := div_count_ne_nan s0 hnb hnb'
  have m2 := div_count_ne_nan (F32.le_trans s0 s1) hnb hnb'
  have hd := div_le_div_right s1 (ofNat_pos hnb) m1 m2
  have hlog := hM _ _ (F32.lt_trans (by decide +kernel) (lt_of_not_le (by decide +kernel : EPS ≠ nan) m1 q1)) hd
  obtain ⟨g10, e10⟩ : ∃ g, (10 : F32) = fin 10 g := ⟨by decide +kernel, by decide +kernel⟩
  have p1 : 10 * M.log10 (F32.sum lp / F32.ofNat ((y.length + b - 1) / b)) ≠ nan := by
    rw [e10]; exact mul_pos_ne_nan (by norm_num) (ne_nan_left hlog)
  have p2 : 10 * M.log10 (F32.sum lp' / F32.ofNat ((y.length + b - 1) / b)) ≠ nan := by
    rw [e10]; exact mul_pos_ne_nan (by norm_num) (ne_nan_right hlog)
  have ht := mul_le_mul_of_nonneg_left hlog (by decide +kernel : (0 : F32) ≤ 10) p1 p2
  exact F32.add_le_add (le_refl (by decide +kernel)) ht (fin_add_ne_nan p1) (fin_add_ne_nan p2)

/-- cosine and sine of the filter angle at 10 Hz (blocks of four samples), the gate, and the logarithms of the two mean powers
below, correctly rounded -/
def slowLibm : Libm := { Libm.demo with
  powf := fun _ _ => 1.1725e-7
  log10 := fun x => if x ≤ 0.033 then -1.48455 else -1.37734
  cos := fun _ => 0.32419985
  sin := fun _ => 0.94598861 }

theorem slow_mono : LogUp slowLibm := by
  intro a b _ h
  show (if a ≤ 0.033 then (-1.48455 : F32) else -1.37734) ≤ (if b ≤ 0.033 then (-1.48455 : F32) else -1.37734)
  by_cases hb : b ≤ 0.033
  · rw [if_pos hb, if_pos (F32.le_trans h hb)]; decide +kernel
  · rw [if_neg hb]; split_ifs <;> decide +kernel

/-- non-vacuity of the loudness part: one loud block, amplified -/
example : AtLeast ((KFilter.new slowLibm 10).run [0.5, 0, 0]) ((KFilter.new slowLibm 10).run [0.75, 0, 0]) ∧
    ∀ k < (3 + ((10 : F32) * 400 / 1000).toUsize - 1) / ((10 : F32) * 400 / 1000).toUsize,
      slowLibm.powf 10 ((-70 + 0.691) / 10) <
        powerOf (blockAt ((10 : F32) * 400 / 1000).toUsize ((KFilter.new slowLibm 10).run [0.5, 0, 0]) k) := by
  refine ⟨?_, by decide +kernel⟩
  exact .cons (by decide +kernel) (.cons (by decide +kernel) (.cons (by decide +kernel) .nil))

/-- a quiet click and a loud click, one block each -/
def quietLoud : List F32 := [0.0008, 0, 0, 0, 0.5, 0, 0, 0]

/-- **C126 violated.** Amplifying a recording by 1.25 (2 dB) lowers its measured loudness by 1 LU: the quiet block rises above the
absolute gate and from then on halves the average (ITU-R BS.1770 has a second, relative gate for this). -/
theorem C126_violated : LogUp slowLibm ∧ (match calculateLufs slowLibm quietLoud 10,
    calculateLufs slowLibm (quietLoud.map (· * 1.25)) 10 with
    | .ok v, .ok v' => decide (v' + 1 < v) | _, _ => false) = true :=
  ⟨slow_mono, by decide +kernel⟩

end Verif.Props
