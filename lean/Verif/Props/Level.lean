/-
C98: with peak normalization the level of the recording does not matter.
-/
import Verif.Model.Analyze
import Verif.F32.Scale
import Verif.Lemmas.Normalization
import Verif.Props.Whole

namespace Verif.Props
open Verif F32 Analyze

/-- specification: `b` is `2^k` times `a`, exactly, and both are finite -/
def LouderBy (k : ℕ) (a b : F32) : Prop := ∃ q h h', a = fin q h ∧ b = fin (2 ^ k * q) h'

theorem louder_max {k : ℕ} {a b a' b' : F32} (h : LouderBy k a a') (h' : LouderBy k b b') : LouderBy k (F32.max a b) (F32.max a' b') := by
  obtain ⟨x, hx, hx', rfl, rfl⟩ := h
  obtain ⟨y, hy, hy', rfl, rfl⟩ := h'
  have hp : (0 : ℚ) < 2 ^ k := by positivity
  unfold F32.max
  simp only [isNaN_fin, Bool.false_eq_true, if_false, fin_lt_fin]
  by_cases hl : x < y
  · rw [if_pos hl, if_pos (mul_lt_mul_of_pos_left hl hp)]; exact ⟨_, _, _, rfl, rfl⟩
  · rw [if_neg hl, if_neg (fun h => hl (lt_of_mul_lt_mul_left h hp.le))]; exact ⟨_, _, _, rfl, rfl⟩

theorem louder_min {k : ℕ} {a b a' b' : F32} (h : LouderBy k a a') (h' : LouderBy k b b') : LouderBy k (F32.min a b) (F32.min a' b') := by
  obtain ⟨x, hx, hx', rfl, rfl⟩ := h
  obtain ⟨y, hy, hy', rfl, rfl⟩ := h'
  have hp : (0 : ℚ) < 2 ^ k := by positivity
  unfold F32.min
  simp only [isNaN_fin, Bool.false_eq_true, if_false, fin_lt_fin]
  by_cases hl : y < x
  · rw [if_pos hl, if_pos (mul_lt_mul_of_pos_left hl hp)]; exact ⟨_, _, _, rfl, rfl⟩
  · rw [if_neg hl, if_neg (fun h => hl (lt_of_mul_lt_mul_left h hp.le))]; exact ⟨_, _, _, rfl, rfl⟩

theorem louder_abs {k : ℕ} {a a' : F32} (h : LouderBy k a a') : LouderBy k a.abs a'.abs := by
  obtain ⟨x, hx, hx', rfl, rfl⟩ := h
  have e : |(2 ^ k * x : ℚ)| = 2 ^ k * |x| := by rw [_root_.abs_mul, abs_of_pos (by positivity)]
  rw [abs_fin, abs_fin]
  simp only [e]
  exact ⟨_, _, _, rfl, rfl⟩

theorem louder_zero (k : ℕ) : LouderBy k 0 0 := by
  rw [zero_def]
  have e : (2 ^ k * 0 : ℚ) = 0 := by ring
  exact ⟨0, grid_zero, by rw [e]; exact grid_zero, rfl, by congr 1; exact e.symm⟩

theorem louder_peak {k : ℕ} {s t : List F32} (h : List.Forall₂ (LouderBy k) s t) : LouderBy k (Norm.peakOf s) (Norm.peakOf t) := by
  unfold Norm.peakOf F32.foldMax
  have : ∀ {a b : F32}, LouderBy k a b → LouderBy k ((s.map F32.abs).foldl F32.max a) ((t.map F32.abs).foldl F32.max b) := by
    induction h with
    | nil => exact fun h => h
    | cons hd _ ih => exact fun h => ih (louder_max h (louder_abs hd))
  exact this (louder_zero k)

/-- dividing by the louder peak gives the smaller gain, exactly -/
theorem louder_gain {k : ℕ} {τ p : ℚ} {hτ hp hp'} (h0 : pow2 (-20) ≤ τ) (h1 : τ ≤ 1) (p0 : pow2 (-34) ≤ p)
    (p1 : 2 ^ k * p ≤ pow2 100) : LouderBy k (fin τ hτ / fin (2 ^ k * p) hp') (fin τ hτ / fin p hp) := by
  have hk : (0 : ℚ) < 2 ^ k := by positivity
  have hpp : 0 < p := lt_of_lt_of_le (pow2_pos _) p0
  have hττ : 0 < τ := lt_of_lt_of_le (pow2_pos _) h0
  have hq0 : 0 < τ / (2 ^ k * p) := by positivity
  have e : τ / p = pow2 k * (τ / (2 ^ k * p)) := by rw [pow2_nat]; field_simp
  have big : pow2 (-126) ≤ |τ / (2 ^ k * p)| := by
    rw [abs_of_pos hq0, le_div_iff₀ (by positivity)]
    calc pow2 (-126) * (2 ^ k * p) ≤ pow2 (-126) * pow2 100 := mul_le_mul_of_nonneg_left p1 (pow2_pos _).le
      _ = pow2 (-26) := by rw [← pow2_add]; norm_num
      _ ≤ pow2 (-20) := pow2_le (by norm_num)
      _ ≤ τ := h0
  have r := rndQ_scale big (k := (k : ℤ)) (by positivity)
  rw [← e] at r
  have fp : |rndQ (τ / p)| < pow2 128 := by
    rw [abs_of_nonneg (rndQ_nonneg (by positivity))]
    refine lt_of_le_of_lt (rndQ_le_of_onGrid (b := pow2 34) (onGrid_pow2 (by norm_num)) ?_) (pow2_lt (by norm_num))
    rw [div_le_iff₀ hpp]
    calc τ ≤ 1 := h1
      _ = pow2 34 * pow2 (-34) := by rw [← pow2_add, pow2_eq]; norm_num
      _ ≤ pow2 34 * p := mul_le_mul_of_nonneg_left p0 (pow2_pos _).le
  have fq : |rndQ (τ / (2 ^ k * p))| < pow2 128 := by
    refine lt_of_le_of_lt ?_ fp
    rw [r, _root_.abs_mul, abs_of_pos (pow2_pos _), pow2_nat]
    exact le_mul_of_one_le_left (abs_nonneg _) (one_le_pow₀ (by norm_num))
  rw [div_fin (by positivity), div_fin hpp.ne', rnd_of_lt fp, rnd_of_lt fq]
  rw [pow2_nat] at r
  refine ⟨rndQ (τ / (2 ^ k * p)), _, r ▸ ⟨onGrid_rndQ _, fp⟩, rfl, ?_⟩
  congr 1

theorem louder_mul {k : ℕ} {a a' g g' : F32} (h : LouderBy k a a') (hg : LouderBy k g' g) : a * g = a' * g' := by
  obtain ⟨x, hx, hx', rfl, rfl⟩ := h
  obtain ⟨y, hy, hy', rfl, rfl⟩ := hg
  rw [mul_fin, mul_fin]
  congr 1
  ring

theorem EPS_pow : rnd (pow2 (-34)) ≤ Norm.EPS := by decide +kernel

/-- the normalized audio is the same, bit by bit -/
theorem peak_level {M : Libm} {k : ℕ} {s t : List F32} {head : F32} (hst : List.Forall₂ (LouderBy k) s t)
    (hloud : ∃ x ∈ s, Norm.EPS < x.abs) (hbig : ∀ x ∈ t, x.abs ≤ rnd (pow2 100))
    (h0 : rnd (pow2 (-20)) ≤ M.powf 10 ((0 - head) / 20)) (h1 : M.powf 10 ((0 - head) / 20) ≤ 1) :
    ∃ y m m', Norm.normalizePeak M s head = .ok (y, m) ∧ Norm.normalizePeak M t head = .ok (y, m') := by
  obtain ⟨x, hx, hxe⟩ := hloud
  have hs0 : s ≠ [] := List.ne_nil_of_mem hx
  have ht0 : t ≠ [] := by
    intro h
    rw [h] at hst
    cases hst
    exact hs0 rfl
  obtain ⟨-, s2, s3⟩ := Norm.peakOf_spec s
  obtain ⟨t1, -, t3⟩ := Norm.peakOf_spec t
  have hxn : x ≠ nan := by
    rintro rfl
    exact absurd hxe (by decide +kernel)
  have hpe : Norm.EPS < Norm.peakOf s := lt_of_lt_of_le hxe (s2 x hx hxn)
  have hpt : Norm.peakOf t ≤ rnd (pow2 100) := by
    rcases t3 with e | ⟨z, hz, e⟩
    · rw [e]; exact rnd_nonneg (pow2_pos _).le
    · rw [e]; exact hbig z hz
  have hpk := louder_peak hst
  obtain ⟨p, hp, hp', ep, ept⟩ := hpk
  have g100 : OnGrid (pow2 100) ∧ |pow2 100| < pow2 128 :=
    ⟨onGrid_pow2 (by norm_num), by rw [abs_of_pos (pow2_pos _)]; exact pow2_lt (by norm_num)⟩
  have g34 : OnGrid (pow2 (-34)) ∧ |pow2 (-34)| < pow2 128 :=
    ⟨onGrid_pow2 (by norm_num), by rw [abs_of_pos (pow2_pos _)]; exact pow2_lt (by norm_num)⟩
  have g20 : OnGrid (pow2 (-20)) ∧ |pow2 (-20)| < pow2 128 :=
    ⟨onGrid_pow2 (by norm_num), by rw [abs_of_pos (pow2_pos _)]; exact pow2_lt (by norm_num)⟩
  have p0 : pow2 (-34) ≤ p := by
    have := F32.le_trans EPS_pow (F32.le_of_lt hpe)
    rw [ep, rnd_val g34, fin_le_fin] at this
    exact this
  have p1 : 2 ^ k * p ≤ pow2 100 := by
    rw [ept, rnd_val g100, fin_le_fin] at hpt
    exact hpt
  have hpet : Norm.EPS < Norm.peakOf t := by
    refine lt_of_lt_of_le hpe ?_
    rw [ep, ept, fin_le_fin]
    exact le_mul_of_one_le_left (le_trans (pow2_pos _).le p0) (one_le_pow₀ (by norm_num))
  unfold Norm.normalizePeak
  rw [if_neg hs0, if_neg ht0]
  dsimp only
  rw [if_neg (not_le_of_lt hpe), if_neg (not_le_of_lt hpet)]
  have hg : LouderBy k (F32.min (M.powf 10 ((0 - head) / 20) / Norm.peakOf t) (1 / Norm.peakOf t))
      (F32.min (M.powf 10 ((0 - head) / 20) / Norm.peakOf s) (1 / Norm.peakOf s)) := by
    rw [ep, ept]
    have hτ : ∃ τ h, M.powf 10 ((0 - head) / 20) = fin τ h ∧ pow2 (-20) ≤ τ ∧ τ ≤ 1 := by
      revert h0 h1
      generalize M.powf 10 ((0 - head) / 20) = T
      intro h0 h1
      rcases T with _ | b | ⟨τ, hτ⟩
      · exact absurd h1 (not_nan_le _)
      · rcases b
        · exact absurd h1 (by decide +kernel)
        · exact absurd h0 (by decide +kernel)
      · rw [one_def, fin_le_fin] at h1
        rw [rnd_val g20, fin_le_fin] at h0
        exact ⟨τ, hτ, rfl, h0, h1⟩
    obtain ⟨τ, hτ, eτ, τ0, τ1⟩ := hτ
    rw [eτ, one_def]
    refine louder_min (louder_gain τ0 τ1 p0 p1) (louder_gain ?_ (le_refl _) p0 p1)
    rw [pow2_eq]; norm_num
  have hy : s.map (· * F32.min (M.powf 10 ((0 - head) / 20) / Norm.peakOf s) (1 / Norm.peakOf s)) =
      t.map (· * F32.min (M.powf 10 ((0 - head) / 20) / Norm.peakOf t) (1 / Norm.peakOf t)) := by
    clear hbig hpe hpt hpet t3 t1 s2 s3 ep ept hs0 ht0 hx hxe hxn
    revert hg
    generalize F32.min (M.powf 10 ((0 - head) / 20) / Norm.peakOf s) (1 / Norm.peakOf s) = g
    generalize F32.min (M.powf 10 ((0 - head) / 20) / Norm.peakOf t) (1 / Norm.peakOf t) = g'
    intro hg
    induction hst with
    | nil => rfl
    | cons hd _ ih => rw [List.map_cons, List.map_cons, ih, louder_mul hd hg]
  rw [hy]
  exact ⟨_, _, _, rfl, rfl⟩

/-- **C98, level.** With peak normalization (the default) a recording and the same recording louder by a power of two
give the same result, bit by bit, or the same error.  The recording must not be digital silence (peak above `1e-10`), and
the louder one must stay below `2^100`; the library must put the 1 dB headroom between `2^-20` and one. -/
theorem C98_level (L : Lib) (c : Config) (k : ℕ) (s t : List F32) (sr : ℕ) (hc : c.enableNormalization = true)
    (hm : c.normalization = .peak) (hst : List.Forall₂ (LouderBy k) s t)
    (hloud : ∃ x ∈ s, (1e-10 : F32) < x.abs) (hbig : ∀ x ∈ t, x.abs ≤ rnd (pow2 100))
    (h0 : rnd (pow2 (-20)) ≤ L.M.powf 10 ((0 - 1) / 20)) (h1 : L.M.powf 10 ((0 - 1) / 20) ≤ 1) :
    analyze L c t sr = analyze L c s sr := by
  obtain ⟨y, m, m', e, e'⟩ := peak_level hst hloud hbig h0 h1
  obtain ⟨x, hx, -⟩ := hloud
  have hs0 : s ≠ [] := List.ne_nil_of_mem hx
  have ht0 : t ≠ [] := by
    intro h
    rw [h] at hst
    cases hst
    exact hs0 rfl
  have hn : normalized L c t sr = normalized L c s sr := by
    unfold normalized
    rw [if_pos hc, if_pos hc, hm]
    show (do let r ← Norm.normalizePeak L.M t 1; pure r.1) = (do let r ← Norm.normalizePeak L.M s 1; pure r.1)
    rw [e, e']
    rfl
  unfold analyze
  rw [if_neg hs0, if_neg ht0, hn]

/-- a square wave of amplitude `a` -/
def squareOf (a : F32) (n : ℕ) : List F32 := (List.replicate n [a, a, -a, -a]).flatten

theorem forall₂_replicate {α : Type} {r : α → α → Prop} {l l' : List α} (h : List.Forall₂ r l l') (n : ℕ) :
    List.Forall₂ r (List.replicate n l).flatten (List.replicate n l').flatten := by
  induction n with
  | zero => exact .nil
  | succ n ih =>
    rw [List.replicate_succ, List.replicate_succ, List.flatten_cons, List.flatten_cons]
    exact List.rel_append h ih

theorem louder_of_rnd {k : ℕ} {q : ℚ} (h : OnGrid q ∧ |q| < pow2 128) (h' : OnGrid (2 ^ k * q) ∧ |2 ^ k * q| < pow2 128) :
    LouderBy k (rnd q) (rnd (2 ^ k * q)) := ⟨q, h, h', rnd_val h, rnd_val h'⟩

/-- square waves at an eighth of full scale and at half of full scale -/
theorem squares_louder (n : ℕ) : List.Forall₂ (LouderBy 2) (squareOf 0.125 n) (squareOf 0.5 n) := by
  have h1 : LouderBy 2 0.125 0.5 := by
    have := louder_of_rnd (k := 2) (q := 0.125) (by decide +kernel) (by decide +kernel)
    rw [(by decide +kernel : rnd 0.125 = 0.125), (by decide +kernel : rnd (2 ^ 2 * 0.125) = 0.5)] at this
    exact this
  have h2 : LouderBy 2 (-0.125) (-0.5) := by
    have := louder_of_rnd (k := 2) (q := -0.125) (by decide +kernel) (by decide +kernel)
    rw [(by decide +kernel : rnd (-0.125) = -0.125), (by decide +kernel : rnd (2 ^ 2 * -0.125) = -0.5)] at this
    exact this
  exact forall₂_replicate (.cons h1 (.cons h1 (.cons h2 (.cons h2 .nil)))) n

-- the two square waves are analysed alike, with the default settings, whatever the library does apart from the headroom
example (L : Lib) (h : L.M.powf 10 ((0 - 1) / 20) = 0.8912509) (sr : ℕ) :
    analyze L {} (squareOf 0.5 1024) sr = analyze L {} (squareOf 0.125 1024) sr := by
  refine C98_level L {} 2 _ _ sr rfl rfl (squares_louder _) ⟨0.125, by decide +kernel, by decide +kernel⟩ ?_ ?_ ?_
  · intro x hx
    obtain ⟨l, hl, hx⟩ := List.mem_flatten.1 hx
    rw [List.eq_of_mem_replicate hl] at hx
    exact (by decide +kernel : ∀ v ∈ [(0.5 : F32), 0.5, -0.5, -0.5], v.abs ≤ rnd (pow2 100)) x hx
  · rw [h]; decide +kernel
  · rw [h]; decide +kernel

/-- short frames, samples used as they come -/
def rawConfig : Config := { frame := 16, hop := 4, enableNormalization := false }

theorem raw_key : KeyCfg rawConfig := by
  constructor <;> decide +kernel

theorem raw_tempo : TempoCfg rawConfig 44100 := by
  have h := short_tempo
  exact ⟨by decide, by decide, h.params, h.comb, h.rate, h.band, h.weights⟩

/-- **C98, why normalization is needed.** Without it the level matters: silence is measured against an absolute threshold,
so the half-scale square wave is analysed and the same wave turned down by `2^11` is refused as silence. -/
theorem C98_needs_normalization : ∃ N r, ∀ fuel, N ≤ fuel →
    analyze { plainLib with fuel := fuel } rawConfig (squareOf 0.5 16) 44100 = .ok r ∧
    analyze { plainLib with fuel := fuel } rawConfig ((squareOf 0.5 16).map (· / 2048)) 44100 = R.err .processing := by
  have hb : ∀ a : F32, a.abs ≤ 1 → (-a).abs ≤ 1 → ∀ n, ∀ v ∈ squareOf a n, v.abs ≤ 1 := by
    intro a h h' n v hv
    obtain ⟨l, hl, hv⟩ := List.mem_flatten.1 hv
    rw [List.eq_of_mem_replicate hl] at hv
    simp only [List.mem_cons, List.not_mem_nil, or_false] at hv
    rcases hv with rfl | rfl | rfl | rfl <;> assumption
  have hq : (squareOf 0.5 16).map (· / 2048) = squareOf (0.5 / 2048) 16 := by decide +kernel
  rw [hq]
  obtain ⟨y, ey, ly, -, h⟩ := C90_succeeds plainLib rawConfig (squareOf 0.5 16) 44100 plain_good raw_key raw_tempo (by norm_num)
    (by norm_num) (by decide +kernel) (by decide +kernel) (hb _ (by decide +kernel) (by decide +kernel) _)
    (fun h => absurd h (by decide))
  obtain ⟨y', ey', ly', h', -⟩ := C90_succeeds plainLib rawConfig (squareOf (0.5 / 2048) 16) 44100 plain_good raw_key raw_tempo
    (by norm_num) (by norm_num) (by decide +kernel) (by decide +kernel) (hb _ (by decide +kernel) (by decide +kernel) _)
    (fun h => absurd h (by decide))
  cases ey
  cases ey'
  obtain ⟨N, r, n, -, -, -, -, e⟩ := h (fun hs => absurd (hs.2 0 (by unfold IsFrame; decide +kernel)) (by unfold SilentFrame; decide +kernel))
  refine ⟨N, r, fun fuel hf => ⟨e fuel hf, h' ⟨rfl, ?_⟩ fuel⟩⟩
  intro k hk
  have hl : (squareOf (0.5 / 2048) 16).length = 64 := by decide +kernel
  rw [hl] at hk
  have hk6 : k ∈ List.range 7 := by
    rw [List.mem_range]
    rcases hk with h | ⟨h, -⟩
    · have : k * 8 + 16 ≤ 64 := h
      omega
    · omega
  exact (by decide +kernel : ∀ k ∈ List.range 7, Silence.frameRms (Silence.frame (squareOf (0.5 / 2048) 16) 16 k) ≤
    plainLibm.powf 10 (-40 / 20)) k hk6

end Verif.Props
