/-
Property theorems C130: turning the volume up by a power of two changes no log-frequency chroma vector
(src/features/chroma/extractor.rs lines 937-981) and no L2-normalised vector (normalization.rs).
-/
import Verif.Props.VolumeCurves
import Verif.Lemmas.Norm

namespace Verif.Props
open Verif Verif.Chroma Verif.F32

/-! ### Sums of scaled numbers, with the number of terms -/

/-- as `Vol`, bounded by `n` times `2^hi` -/
def VolN (k : ℕ) (lo hi : ℤ) (n : ℕ) (x y : F32) : Prop :=
  ∃ v hv hw, x = fin v hv ∧ y = fin (pow2 k * v) hw ∧ 0 ≤ v ∧ (v = 0 ∨ pow2 lo ≤ v) ∧ pow2 k * v ≤ n * pow2 hi

theorem volN_zero (k : ℕ) (lo hi : ℤ) (n : ℕ) : VolN k lo hi n 0 0 :=
  ⟨0, grid_zero, by rw [mul_zero]; exact grid_zero, zero_def, by rw [zero_def]; congr 1; rw [mul_zero], _root_.le_refl _, .inl rfl,
    by rw [mul_zero]; exact _root_.mul_nonneg (by positivity) (pow2_pos _).le⟩

theorem VolN.mono {k : ℕ} {lo hi : ℤ} {n n' : ℕ} {x y : F32} (h : VolN k lo hi n x y) (hn : n ≤ n') : VolN k lo hi n' x y := by
  obtain ⟨v, hv, hw, e, e', v0, vl, vh⟩ := h
  exact ⟨v, hv, hw, e, e', v0, vl, vh.trans (mul_le_mul_of_nonneg_right (by exact_mod_cast hn) (pow2_pos _).le)⟩

theorem VolN.vol {k : ℕ} {lo hi : ℤ} {n b : ℕ} {x y : F32} (h : VolN k lo hi n x y) (hn : n ≤ 2 ^ b) : Vol k lo (hi + b) x y := by
  obtain ⟨v, hv, hw, e, e', v0, vl, vh⟩ := h
  refine ⟨v, hv, hw, e, e', v0, vl, vh.trans ?_⟩
  rw [_root_.add_comm hi, pow2_add]
  refine mul_le_mul_of_nonneg_right ?_ (pow2_pos _).le
  rw [pow2_nat]
  exact_mod_cast hn

theorem VolN.add {k : ℕ} {lo hi : ℤ} {n : ℕ} {a a' x y : F32} (h : VolN k lo hi n a a') (h' : Vol k lo hi x y)
    (hn : n + 1 ≤ 2 ^ 24) (h1 : -149 ≤ lo) (h2 : -149 ≤ hi) (h3 : hi + 24 ≤ 127) :
    VolN k lo hi (n + 1) (a + x) (a' + y) := by
  have hk := pow2_pos (k : ℤ)
  obtain ⟨v, hv, hw, rfl, rfl, v0, vl, vh⟩ := h
  obtain ⟨w, hv', hw', rfl, rfl, w0, wl, wh⟩ := h'
  rw [add_fin, add_fin]
  have e1 : pow2 k * v + pow2 k * w = pow2 k * (v + w) := by ring
  have hb : pow2 k * (v + w) ≤ ((n + 1 : ℕ) : ℚ) * pow2 hi := by push_cast; rw [← e1]; linarith
  have hg : OnGrid (((n + 1 : ℕ) : ℚ) * pow2 hi) ∧ |((n + 1 : ℕ) : ℚ) * pow2 hi| < pow2 128 := by
    refine ⟨?_, ?_⟩
    · have := onGrid_of_scaled (m := ((n + 1 : ℕ) : ℤ)) (e := hi) (by rw [Nat.abs_cast]; exact_mod_cast hn) h2
      exact_mod_cast this
    · rw [abs_of_nonneg (_root_.mul_nonneg (by positivity) (pow2_pos _).le)]
      have : ((n + 1 : ℕ) : ℚ) * pow2 hi ≤ pow2 24 * pow2 hi := by
        refine mul_le_mul_of_nonneg_right ?_ (pow2_pos _).le
        rw [show (24 : ℤ) = ((24 : ℕ) : ℤ) from rfl, pow2_nat]
        exact_mod_cast hn
      rw [← pow2_add] at this
      exact _root_.lt_of_le_of_lt this (pow2_lt (by omega))
  have q0 : 0 ≤ v + w := by linarith
  have p0 : 0 ≤ pow2 k * (v + w) := _root_.mul_nonneg hk.le q0
  obtain ⟨g', f', u'⟩ := rnd_finite_of_abs_le hg (q := pow2 k * (v + w)) (by rw [abs_of_nonneg p0]; exact hb)
  obtain ⟨g, f, u⟩ := rnd_finite_of_abs_le hg (q := v + w) (by
    rw [abs_of_nonneg q0]; exact (le_mul_of_one_le_left q0 (one_le_pow2 k)).trans hb)
  have hs : rndQ (pow2 k * (v + w)) = pow2 k * rndQ (v + w) := rndQ_scale_add hv.1 hv'.1 (by positivity)
  have g'' := g'
  rw [hs] at g''
  refine ⟨rndQ (v + w), g, g'', f, by rw [e1, f']; congr 1, rndQ_nonneg q0, ?_, by rw [← hs]; exact (le_abs_self _).trans u'⟩
  have : v + w = 0 ∨ pow2 lo ≤ v + w := by
    rcases vl with rfl | vl
    · rcases wl with rfl | wl
      · left; ring
      · right; linarith
    · right; linarith
  rcases this with hz | hl
  · left; rw [hz]; exact rndQ_zero
  · right
    have := rndQ_mono hl
    rwa [show rndQ (pow2 lo) = pow2 lo from onGrid_pow2 h1] at this

theorem volN_sum {k : ℕ} {lo hi : ℤ} {l l' : List F32} (h : List.Forall₂ (Vol k lo hi) l l') (h1 : -149 ≤ lo) (h2 : -149 ≤ hi)
    (h3 : hi + 24 ≤ 127) : ∀ {n : ℕ} {a a' : F32}, n + l.length ≤ 2 ^ 24 → VolN k lo hi n a a' →
    VolN k lo hi (n + l.length) (l.foldl (· + ·) a) (l'.foldl (· + ·) a') := by
  induction h with
  | nil => intro n a a' _ ha; exact ha
  | @cons x y l l' hx _ ih =>
    intro n a a' hn ha
    rw [List.length_cons] at hn ⊢
    rw [List.foldl_cons, List.foldl_cons, show n + (l.length + 1) = n + 1 + l.length by ring]
    exact ih (by omega) (ha.add hx (by omega) h1 h2 h3)

/-! ### Norms -/

theorem vol_norm2 {k : ℕ} {c c' : List F32} (h : List.Forall₂ (Vol k (-40) 50) c c') (hl : c.length ≤ 16) :
    Vol k (-40) 52 (norm2 c) (norm2 c') := by
  have hsq : List.Forall₂ (Vol (k + k) (-80) 100) (c.map (fun x => x * x)) (c'.map (fun x => x * x)) := by
    rw [List.forall₂_map_left_iff, List.forall₂_map_right_iff]
    exact h.imp fun x y hxy => hxy.mul hxy (by norm_num) (by norm_num) (by norm_num) (by norm_num)
  have hs := (volN_sum hsq (by norm_num) (by norm_num) (by norm_num) (n := 0) (by rw [List.length_map]; omega)
    (volN_zero (k + k) (-80) 100 0)).vol (b := 4) (by rw [List.length_map]; omega)
  exact Vol.sqrt (lo := -40) (hi := 52) hs (by norm_num) (by norm_num) (by norm_num)

theorem vol_mags {k : ℕ} {lo hi : ℤ} {c c' : List F32} (h : List.Forall₂ (Vol k lo hi) c c') : Mags c := by
  induction h with
  | nil => intro x hx; cases hx
  | cons h1 _ ih =>
    obtain ⟨v, hv, hw, rfl, rfl, v0, -⟩ := h1
    intro x hx
    rcases List.mem_cons.1 hx with rfl | hx
    · exact ⟨by rw [zero_def]; exact fin_le_fin.2 v0, rfl⟩
    · exact ih x hx

theorem vol_scaled {k : ℕ} {c c' : List F32} (h : List.Forall₂ (Vol k (-40) 50) c c') (hl : c.length ≤ 16)
    (hE : EPS < norm2 c) : EPS < norm2 c' ∧ c.map (fun x => x / norm2 c) = c'.map (fun x => x / norm2 c') := by
  have hn := vol_norm2 h hl
  exact ⟨F32.lt_of_lt_of_le hE (vol_le hn),
    gain_quotients (pow2_pos _) (h.imp fun _ _ h => h.gain) hn.gain (F32.lt_trans (by decide +kernel) hE)⟩

theorem vol_all_zero {k : ℕ} {lo hi : ℤ} {c c' : List F32} (h : List.Forall₂ (Vol k lo hi) c c') (h0 : ∀ x ∈ c, x = 0) : c' = c := by
  induction h with
  | nil => rfl
  | cons h1 _ ih =>
    obtain ⟨v, hv, hw, rfl, rfl, -⟩ := h1
    have hz := h0 (fin v hv) (by simp)
    rw [zero_def] at hz
    have hv0 : v = 0 := by injection hz
    rw [ih fun x hx => h0 x (by simp [hx])]
    congr 2
    rw [hv0, mul_zero]

theorem big_norm {c : List F32} (hm : Mags c) {t : F32} (ht : EPS < t) (ht' : rnd (pow2 (-60)) ≤ t) (h : ∃ x ∈ c, t ≤ x) : EPS < norm2 c := by
  obtain ⟨x, hx, hxt⟩ := h
  rcases le_norm2 hm hx with h1 | h1
  · exact absurd (F32.lt_of_lt_of_le h1 (F32.le_trans ht' hxt)) (F32.lt_irrefl _)
  · exact F32.lt_of_lt_of_le ht (F32.le_trans hxt h1)

theorem vol_unitOrKeep {k : ℕ} {c c' : List F32} (h : List.Forall₂ (Vol k (-40) 50) c c') (hl : c.length ≤ 16)
    (h1 : (∀ x ∈ unitOrKeep c, x = 0) ∨ ∃ x ∈ unitOrKeep c, (0.1 : F32) ≤ x) : unitOrKeep c' = unitOrKeep c := by
  have hm := vol_mags h
  by_cases hE : EPS < norm2 c
  · obtain ⟨h2, h3⟩ := vol_scaled h hl hE
    unfold unitOrKeep
    dsimp only
    rw [if_pos hE, if_pos h2, h3]
  · have hk : unitOrKeep c = c := by unfold unitOrKeep; dsimp only; rw [if_neg hE]
    rw [hk] at h1 ⊢
    rcases h1 with h1 | h1
    · rw [vol_all_zero h h1, hk]
    · exact absurd (big_norm hm (by decide +kernel) (by decide +kernel) h1) hE

/-! ### The log-frequency chroma -/

theorem vol_logBins {k : ℕ} {offset : ℤ} : ∀ {ms ms' : List F32}, List.Forall₂ (Vol k (-40) 40) ms ms' →
    ∀ {n i : ℕ} {c c' : List F32}, n + ms.length ≤ 2 ^ 24 → List.Forall₂ (VolN k (-40) 40 n) c c' →
    (∃ r r', logBins offset i ms c = .ok r ∧ logBins offset i ms' c' = .ok r' ∧
      List.Forall₂ (VolN k (-40) 40 (n + ms.length)) r r') ∨ ∃ e, logBins offset i ms c = .error e := by
  intro ms ms' h
  induction h with
  | nil => intro n i c c' _ hc; exact .inl ⟨c, c', rfl, rfl, hc⟩
  | @cons m m' ms ms' hm _ ih =>
    intro n i c c' hn hc
    rw [List.length_cons] at hn ⊢
    rw [show n + (ms.length + 1) = n + 1 + ms.length by ring]
    unfold logBins
    have hz : m ≤ 0 ↔ m' ≤ 0 := gain_le (pow2_pos (k : ℤ)) hm.gain (gain_zero _)
    by_cases h0 : m ≤ 0
    · rw [if_pos h0, if_pos (hz.1 h0)]
      exact ih (by omega) (hc.imp fun _ _ h => h.mono (by omega))
    · rw [if_neg h0, if_neg (fun h => h0 (hz.2 h))]
      cases hs : i32 (offset + asI32 i) with
      | error e => exact .inr ⟨e, rfl⟩
      | ok s =>
        rw [R.ok_bind, R.ok_bind]
        unfold addAt
        rw [hc.length_eq]
        by_cases hj : (s % 12).toNat < c'.length
        · rw [if_pos hj, if_pos hj, R.ok_bind, R.ok_bind]
          refine ih (by omega) ?_
          generalize (s % 12).toNat = j
          clear hj hs ih
          induction hc generalizing j with
          | nil => rw [List.modify_nil, List.modify_nil]; exact .nil
          | cons ha hr ihc =>
            cases j with
            | zero => exact .cons (ha.add hm (by omega) (by norm_num) (by norm_num) (by norm_num)) (hr.imp fun _ _ h => h.mono (by omega))
            | succ j => exact .cons (ha.mono (by omega)) (ihc j)
        · rw [if_neg hj]; exact .inr ⟨_, rfl⟩

theorem logBins_len {offset : ℤ} : ∀ {ms : List F32} {i : ℕ} {c r : List F32}, logBins offset i ms c = .ok r → r.length = c.length := by
  intro ms
  induction ms with
  | nil => intro i c r h; cases h; rfl
  | cons m ms ih =>
    intro i c r h
    unfold logBins at h
    split_ifs at h
    · exact ih h
    · obtain ⟨s, -, h⟩ := R.bind_eq_ok.1 h
      obtain ⟨c1, h1, h⟩ := R.bind_eq_ok.1 h
      unfold addAt at h1
      split_ifs at h1
      cases h1
      rw [ih h, List.length_modify]

/-- **C130 (partial): the volume does not change the log-frequency chroma.** Each vector of the quiet version must be
normalised, i.e. have an entry of at least 0.1, or be zero altogether. -/
theorem C130_log_partial {spec cs : List (List F32)} {offset : ℤ} {k : ℕ} (hk : k ≤ 20)
    (hs : ∀ fr ∈ spec, fr.length ≤ 1024 ∧ ∀ v ∈ fr, 0 ≤ v ∧ OrdinaryLevel v) (h : chromaOfLogSpec spec offset = .ok cs)
    (hc : ∀ c ∈ cs, (∀ x ∈ c, x = 0) ∨ ∃ x ∈ c, (0.1 : F32) ≤ x) :
    chromaOfLogSpec (louderSpec k spec) offset = .ok cs := by
  unfold chromaOfLogSpec louderSpec at *
  rw [List.mapM_map]
  induction spec generalizing cs with
  | nil => exact h
  | cons fr spec ih =>
    rw [List.mapM_cons] at h ⊢
    obtain ⟨u, hu, h⟩ := R.bind_eq_ok.1 h
    obtain ⟨t, ht, h⟩ := R.bind_eq_ok.1 h
    cases h
    obtain ⟨c, hcb, hu⟩ := R.bind_eq_ok.1 hu
    cases hu
    have hV : List.Forall₂ (Vol k (-40) 40) fr (fr.map (· * gainOf2 k)) := by
      rw [List.forall₂_map_right_iff, List.forall₂_same]
      exact fun v hv => (ordinary_vol ((hs fr (by simp)).2 v hv).2 hk).2 ((hs fr (by simp)).2 v hv).1
    have hl := (hs fr (by simp)).1
    have hz : List.Forall₂ (VolN k (-40) 40 0) zero12 zero12 := by
      rw [List.forall₂_same]
      intro x hx
      rw [List.eq_of_mem_replicate hx]
      exact volN_zero _ _ _ _
    rcases vol_logBins (offset := offset) hV (n := 0) (i := 0) (by omega) hz with ⟨r, r', e, e', hr⟩ | ⟨e, he⟩
    · rw [hcb] at e
      cases e
      have hr' : List.Forall₂ (Vol k (-40) 50) c r' := hr.imp fun _ _ h => h.vol (b := 10) (by omega)
      have hlen : c.length ≤ 16 := by rw [logBins_len hcb]; decide
      rw [Function.comp_apply, e', R.ok_bind, R.pure_eq_ok, R.ok_bind, ih (fun f hf => hs f (by simp [hf])) ht (fun c hc' => hc c (by simp [hc'])),
        R.ok_bind, vol_unitOrKeep hr' hlen (hc _ (by simp))]
      rfl
    · rw [hcb] at he; cases he

/-- **C130 (partial): the volume does not change an L2-normalised vector** that is not practically zero. -/
theorem C130_l2_partial {c : List F32} {k : ℕ} (hk : k ≤ 20) (hl : c.length ≤ 16) (hs : ∀ v ∈ c, 0 ≤ v ∧ OrdinaryLevel v)
    (h1 : ∃ x ∈ c, (1.1e-10 : F32) ≤ x) : l2Normalize (c.map (· * gainOf2 k)) = l2Normalize c := by
  have hV : List.Forall₂ (Vol k (-40) 50) c (c.map (· * gainOf2 k)) := by
    rw [List.forall₂_map_right_iff, List.forall₂_same]
    intro v hv
    obtain ⟨q, a, b, e, e', q0, ql, qh⟩ := (ordinary_vol (hs v hv).2 hk).2 (hs v hv).1
    exact ⟨q, a, b, e, e', q0, ql, qh.trans (pow2_le' (by norm_num))⟩
  have hE := big_norm (vol_mags hV) (by decide +kernel) (by decide +kernel) h1
  obtain ⟨h2, h3⟩ := vol_scaled hV hl hE
  have h0 : c ≠ [] := by rintro rfl; obtain ⟨x, hx, -⟩ := h1; cases hx
  unfold l2Normalize
  dsimp only
  rw [if_neg h0, if_neg (by rw [List.map_eq_nil_iff]; exact h0), if_pos hE, if_pos h2, h3]

/-- a spectrogram of two frames, one of them silent -/
def logFrames : List (List F32) := [[1, 0, 2, 0, 0, 0, 0, 0, 0, 0, 0, 0, 2], [0, 0, 0]]

example : (∀ fr ∈ logFrames, fr.length ≤ 1024 ∧ ∀ v ∈ fr, 0 ≤ v ∧ OrdinaryLevel v) ∧
    ∃ cs, chromaOfLogSpec logFrames 0 = .ok cs ∧ (∀ c ∈ cs, (∀ x ∈ c, x = 0) ∨ ∃ x ∈ c, (0.1 : F32) ≤ x) ∧
      chromaOfLogSpec (louderSpec 9 logFrames) 0 = .ok cs := by
  have h0 : ∀ fr ∈ logFrames, fr.length ≤ 1024 ∧ ∀ v ∈ fr, 0 ≤ v ∧ OrdinaryLevel v := by decide +kernel
  have h1 : chromaOfLogSpec logFrames 0 = .ok [unitOrKeep [3, 0, 2, 0, 0, 0, 0, 0, 0, 0, 0, 0], zero12] := by decide +kernel
  have h2 : ∀ c ∈ [unitOrKeep [3, 0, 2, 0, 0, 0, 0, 0, 0, 0, 0, 0], zero12], (∀ x ∈ c, x = 0) ∨ ∃ x ∈ c, (0.1 : F32) ≤ x := by
    decide +kernel
  exact ⟨h0, _, h1, h2, C130_log_partial (by norm_num) h0 h1 h2⟩

example : l2Normalize (([3, 4] : List F32).map (· * gainOf2 5)) = [0.6, 0.8] := by
  rw [C130_l2_partial (by norm_num) (by decide) (by decide +kernel) (by decide +kernel)]; decide +kernel

/-- **C130 is violated** for very quiet recordings: a tone at -200 dB has a chroma vector of length 1e-10, its louder copy
one of length 1. -/
theorem C130_violated : ¬ ∀ (spec : List (List F32)) (offset : ℤ) (k : ℕ), k ≤ 20 →
    (∀ fr ∈ spec, fr.length ≤ 1024 ∧ ∀ v ∈ fr, 0 ≤ v ∧ OrdinaryLevel v) →
    chromaOfLogSpec (louderSpec k spec) offset = chromaOfLogSpec spec offset := by
  intro h
  have := h [[rnd (pow2 (-35))]] 0 20 (by norm_num) (by decide +kernel)
  exact absurd this (by decide +kernel)

end Verif.Props
