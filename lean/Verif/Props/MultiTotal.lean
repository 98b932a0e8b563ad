/-
Multi-resolution escalation (C24): success and confidence on ordinary inputs, and the violations.
-/
import Verif.Props.MultiFuse

namespace Verif.Props
open Verif F32 Tempogram Novelty

/-! ### Magnitudes -/

/-- NaN, or a finite number of magnitude at most `2^n` -/
def NB (x : F32) (n : ℤ) : Prop := x = nan ∨ ∃ v hv, x = fin v hv ∧ |v| ≤ pow2 n

theorem nb_rnd {q : ℚ} {n : ℤ} (h1 : -149 ≤ n) (h2 : n < 128) (h : |q| ≤ pow2 n) : NB (rnd q) n := by
  obtain ⟨hq, e, hb⟩ := rnd_finite_of_abs_le (g_p n h1 h2) h
  exact Or.inr ⟨_, hq, e, hb⟩

theorem nb_mono {x : F32} {m n : ℤ} (h : m ≤ n) (hx : NB x m) : NB x n := by
  rcases hx with e | ⟨v, hv, e, hb⟩
  · exact Or.inl e
  · exact Or.inr ⟨v, hv, e, hb.trans (pow2_le h)⟩

theorem nb_add {x y : F32} {n : ℤ} (h1 : -149 ≤ n) (h2 : n < 127) (hx : NB x n) (hy : NB y n) : NB (x + y) (n + 1) := by
  rcases hx with rfl | ⟨v, hv, rfl, hb⟩
  · left; simp
  rcases hy with rfl | ⟨w, hw, rfl, hc⟩
  · left; simp
  rw [add_fin]
  refine nb_rnd (by omega) (by omega) ?_
  rw [pow2_add, show pow2 1 = 2 from by rw [pow2_eq]; norm_num]
  have := abs_add_le v w
  linarith

theorem nb_sub {x y : F32} {n : ℤ} (h1 : -149 ≤ n) (h2 : n < 127) (hx : NB x n) (hy : NB y n) : NB (x - y) (n + 1) := by
  rcases hx with rfl | ⟨v, hv, rfl, hb⟩
  · left; simp
  rcases hy with rfl | ⟨w, hw, rfl, hc⟩
  · left; simp
  rw [sub_fin]
  refine nb_rnd (by omega) (by omega) ?_
  rw [pow2_add, show pow2 1 = 2 from by rw [pow2_eq]; norm_num]
  have := abs_sub v w
  linarith

theorem nb_mul {x y : F32} {m n : ℤ} (h1 : -149 ≤ m + n) (h2 : m + n < 128) (hx : NB x m) (hy : NB y n) :
    NB (x * y) (m + n) := by
  rcases hx with rfl | ⟨v, hv, rfl, hb⟩
  · left; simp
  rcases hy with rfl | ⟨w, hw, rfl, hc⟩
  · left; simp
  rw [mul_fin]
  refine nb_rnd (by omega) (by omega) ?_
  rw [pow2_add, _root_.abs_mul]
  exact _root_.mul_le_mul hb hc (abs_nonneg _) (pow2_pos _).le

theorem nb_le_one {x : F32} (h : 0 ≤ x) (h1 : x ≤ 1) : NB x 0 := by
  obtain ⟨v, hv, e, v0, v1⟩ := bd_unit ⟨h, h1⟩
  refine Or.inr ⟨v, hv, e, ?_⟩
  rw [abs_of_nonneg v0, pow2_eq]; norm_num; exact v1

theorem nb_not_inf {x : F32} {n : ℤ} (h : NB x n) (s : Bool) : x ≠ inf s := by
  rcases h with e | ⟨v, hv, e, -⟩ <;> rw [e] <;> simp

/-! ### Scores of the fusion -/

/-- weights and factor are NaN or at most 256 in magnitude -/
structure SmallWeights (W : MultiRes.Weights) : Prop where
  a : NB W.w512 8
  b : NB W.w256 8
  c : NB W.w1024 8
  f : NB W.factor 8

/-- all candidates have scores that are NaN or at most `2^100` -/
def ScoresIn (c : MultiRes.Trio) : Prop := ∀ x ∈ c.c256 ++ c.c512 ++ c.c1024, NB x.score 100

theorem near_nb {cs : List CandDbg} (h : ∀ x ∈ cs, NB x.score 100) (b tol : F32) : NB (MultiRes.near cs b tol) 100 := by
  rcases near_spec cs b tol with e | ⟨c, hc, -, e⟩
  · rw [e]; exact Or.inr ⟨0, grid_zero, zero_def, by rw [abs_zero]; exact (pow2_pos _).le⟩
  · rw [e]; exact h c hc

section
variable {W : MultiRes.Weights} {c : MultiRes.Trio}

theorem ScoresIn.n256 (h : ScoresIn c) (b : F32) : NB (MultiRes.near c.c256 b c.tol) 100 :=
  near_nb (fun x hx => h x (by simp [hx])) _ _
theorem ScoresIn.n512 (h : ScoresIn c) (b : F32) : NB (MultiRes.near c.c512 b c.tol) 100 :=
  near_nb (fun x hx => h x (by simp [hx])) _ _
theorem ScoresIn.n1024 (h : ScoresIn c) (b : F32) : NB (MultiRes.near c.c1024 b c.tol) 100 :=
  near_nb (fun x hx => h x (by simp [hx])) _ _

theorem scoreT_nb (hW : SmallWeights W) (hc : ScoresIn c) (t : F32) : NB (MultiRes.scoreT W c t) 110 := by
  unfold MultiRes.scoreT
  have h1 := nb_mul (by norm_num) (by norm_num) hW.a (hc.n512 t)
  have h2 := nb_mul (by norm_num) (by norm_num) hW.b (hc.n256 t)
  have h3 := nb_mul (by norm_num) (by norm_num) hW.c (hc.n1024 t)
  exact nb_add (n := 109) (by norm_num) (by norm_num) (nb_add (n := 108) (by norm_num) (by norm_num) h1 h2) (nb_mono (by norm_num) h3)

theorem scoreRel_nb (hW : SmallWeights W) (hc : ScoresIn c) (t u : F32) : NB (MultiRes.scoreRel W c t u) 120 := by
  unfold MultiRes.scoreRel
  have h1 := nb_mul (by norm_num) (by norm_num) hW.f (hc.n512 t)
  have hf : NB (1 - W.factor) 9 :=
    nb_sub (n := 8) (by norm_num) (by norm_num) (nb_mono (by norm_num) (nb_le_one (x := 1) (by decide +kernel) (by decide +kernel))) hW.f
  have h2 := nb_mul (by norm_num) (by norm_num) hf (hc.n512 u)
  have h3 := nb_add (n := 109) (by norm_num) (by norm_num) (nb_mono (by norm_num) h1) (nb_mono (by norm_num) h2)
  have h4 := nb_mul (by norm_num) (by norm_num) hW.a h3
  have h5 := nb_mul (by norm_num) (by norm_num) hW.b (hc.n256 u)
  have h6 := nb_mul (by norm_num) (by norm_num) hW.c (hc.n1024 u)
  exact nb_add (n := 119) (by norm_num) (by norm_num)
    (nb_add (n := 118) (by norm_num) (by norm_num) (nb_mono (by norm_num) h4) (nb_mono (by norm_num) h5)) (nb_mono (by norm_num) h6)

theorem nb_scale {s k : F32} (hk : NB k 0) (hs : NB s 120) : NB (s * k) 120 :=
  nb_mul (m := 120) (n := 0) (by norm_num) (by norm_num) hs hk

theorem damp_nb {r s : F32} (hs : NB s 120) : NB (MultiRes.damp r s) 120 := by
  have hk : NB (0.75 : F32) 0 := nb_le_one (by decide +kernel) (by decide +kernel)
  unfold MultiRes.damp
  dsimp only
  split_ifs
  · exact nb_scale hk (nb_scale hk hs)
  · exact nb_scale hk hs
  · exact nb_scale hk hs
  · exact hs

theorem locals_nb (hW : SmallWeights W) (hc : ScoresIn c) {minB maxB t : F32} {h : MultiRes.Hyp}
    (hm : h ∈ MultiRes.locals minB maxB W c t) : NB h.score 120 := by
  unfold MultiRes.locals at hm
  rw [mem_sortDesc] at hm
  obtain ⟨x, hx, rfl⟩ := List.mem_map.1 hm
  have hk : NB (0.90 : F32) 0 := nb_le_one (by decide +kernel) (by decide +kernel)
  have hk8 : NB (0.80 : F32) 0 := nb_le_one (by decide +kernel) (by decide +kernel)
  have hk9 : NB (0.92 : F32) 0 := nb_le_one (by decide +kernel) (by decide +kernel)
  have hxs : NB x.score 120 := by
    have := (List.mem_filter.1 hx).1
    simp only [List.mem_cons, List.not_mem_nil, or_false] at this
    rcases this with rfl | rfl | rfl
    · exact nb_mono (by norm_num) (scoreT_nb hW hc t)
    · dsimp only
      unfold MultiRes.score2T
      dsimp only
      split_ifs
      · exact damp_nb (nb_scale hk (scoreRel_nb hW hc _ _))
      · exact damp_nb (scoreRel_nb hW hc _ _)
    · dsimp only
      unfold MultiRes.scoreHalf
      dsimp only
      split_ifs
      · exact damp_nb (nb_scale hk (scoreRel_nb hW hc _ _))
      · exact damp_nb (scoreRel_nb hW hc _ _)
  dsimp only
  unfold MultiRes.prior
  split_ifs
  · exact nb_scale hk8 hxs
  · exact nb_scale hk hxs
  · exact nb_scale hk9 hxs
  · exact hxs

theorem hypOf_nb (hW : SmallWeights W) (hc : ScoresIn c) {minB maxB t : F32} {h : MultiRes.Hyp}
    (hm : MultiRes.hypOf minB maxB W c t = some h) : NB h.score 121 := by
  unfold MultiRes.hypOf at hm
  split_ifs at hm with h1
  rcases hL : MultiRes.locals minB maxB W c t with _ | ⟨best, rest⟩
  · rw [hL] at hm; cases hm
  · rw [hL] at hm
    cases hm
    have hb : NB best.score 120 := locals_nb hW hc (minB := minB) (maxB := maxB) (t := t) (by rw [hL]; simp)
    have ht : NB (MultiRes.scoreT W c t) 120 := nb_mono (by norm_num) (scoreT_nb hW hc t)
    have h5 : NB (0.05 : F32) 120 := nb_mono (by norm_num) (nb_le_one (by decide +kernel) (by decide +kernel))
    unfold MultiRes.choose
    dsimp only
    split_ifs
    · exact nb_add (n := 120) (by norm_num) (by norm_num) ht h5
    · exact nb_mono (by norm_num) ht
    · exact nb_add (n := 120) (by norm_num) (by norm_num) hb h5
    · exact nb_mono (by norm_num) hb

theorem support_nb (hc : ScoresIn c) (b : F32) : NB (MultiRes.support c b).1 121 := by
  unfold MultiRes.support
  dsimp only
  exact nb_mono (by norm_num) (nb_add (n := 101) (by norm_num) (by norm_num)
    (nb_add (n := 100) (by norm_num) (by norm_num) (hc.n256 b) (hc.n512 b)) (nb_mono (by norm_num) (hc.n1024 b)))

theorem fuse_conf (hW : SmallWeights W) (hc : ScoresIn c) {minB maxB : F32} {sr topK : ℕ} {nov : Option (List F32)} {e cs}
    (h : MultiRes.fuse minB maxB sr topK W nov c = .ok (e, cs)) : InUnit e.conf := by
  obtain ⟨top, rest, hk, best, hb, rfl, rfl⟩ := fuse_inv h
  dsimp only
  refine (confOf_unit _ _).2 (nb_not_inf (n := 121) ?_ _)
  obtain ⟨t, -, et⟩ := top_mem hk top (by simp)
  have htop := hypOf_nb hW hc et
  have hd : NB (MultiRes.foldDown c top).score 121 := by
    unfold MultiRes.foldDown
    dsimp only
    split_ifs
    · exact support_nb hc _
    · exact htop
  have hu : NB (MultiRes.foldUp c (MultiRes.foldDown c top)).score 121 := by
    generalize MultiRes.foldDown c top = g at hd
    unfold MultiRes.foldUp
    dsimp only
    split_ifs
    · exact support_nb hc _
    · exact hd
  rcases triplet_cases minB maxB sr c nov (MultiRes.foldUp c (MultiRes.foldDown c top)) with e | ⟨n, f, -, hf, e⟩
  · rw [hb, e]; exact hu
  · rw [hb, e]
    dsimp only
    rw [(fams_mem hf).2.2.1]
    exact support_nb hc _

end

theorem cands_nb {M : Libm} {fft} {fuel : ℕ} {spec : List (List F32)} {p : Params} {k : ℕ} {cfg : Option BandCfg} (hb : BonusOk cfg)
    {e cs} (h : estimateCands M fft fuel spec p k cfg = .ok (e, cs)) : ∀ c ∈ cs, NB c.score 100 := by
  obtain ⟨all, hi, rfl⟩ := estimateCands_inv h
  obtain ⟨vs, ss, hv, l, hl, -, -, -, -, -, hs, -⟩ := impl_spec hi
  intro c hc
  have : c.score ∈ all.map CandDbg.score := List.mem_map_of_mem (List.mem_of_mem_take hc)
  rw [hs] at this
  obtain ⟨d, hd, ed⟩ := List.mem_map.1 this
  rw [mem_sortDesc, hl] at hd
  obtain ⟨b, -, rfl⟩ := List.mem_map.1 hd
  rw [← ed]
  rcases (score_not_inf hb hv p.res b).1 with e | ⟨v, hv, e, v0, v1⟩
  · exact Or.inl e
  · exact Or.inr ⟨v, hv, e, by rw [abs_of_nonneg v0]; exact v1⟩

theorem active_bonus {cfg : Option BandCfg} (h : BonusOk cfg) : BonusOk (MultiRes.active cfg) := by
  intro c hc
  unfold MultiRes.active at hc
  rcases cfg with _ | d
  · cases hc
  · rw [Option.filter_some] at hc
    split_ifs at hc
    cases hc
    exact h _ rfl

/-- **C24 (confidence, partial)**: the confidence is in `[0,1]` when the consensus bonus is at most `2^80` and the fusion weights
and the factor are at most 256 in magnitude (or NaN).  Missing: larger weights, see `C24_violated_conf`. -/
theorem C24_confidence_partial (M : Libm) (sfft : List F32 → List (F32 × F32)) (fft : List F32 → ℕ → F32 × F32) (fuel : ℕ)
    (samples : List F32) (sr frame : ℕ) (minB maxB res : F32) (topK : ℕ) (W : MultiRes.Weights) (cfg : Option BandCfg)
    (hW : SmallWeights W) (hb : BonusOk cfg) (e : Period.Est) (cs : List CandDbg)
    (h : MultiRes.fromSamples M sfft fft fuel samples sr frame minB maxB res topK W cfg = .ok (e, cs)) : InUnit e.conf := by
  obtain ⟨-, h256, h512, h1024, e256, e512, e1024, c256, c512, c1024, nov, -, -, -, h1, h2, h3, -, hf⟩ := fromSamples_inv h
  have i1 := cands_nb (active_bonus hb) h1
  have i2 := cands_nb (active_bonus hb) h2
  have i3 := cands_nb (active_bonus hb) h3
  refine fuse_conf (c := ⟨c256, c512, c1024, F32.max 2 res⟩) hW ?_ hf
  intro x hx
  rcases List.mem_append.1 hx with hx | hx
  · rcases List.mem_append.1 hx with hx | hx
    · exact i1 x hx
    · exact i2 x hx
  · exact i3 x hx

/-! ### Success -/

theorem keep8_ne {l u : List MultiRes.Hyp} (h : u ≠ [] ∨ l ≠ []) : MultiRes.keep8 u l ≠ [] := by
  induction l generalizing u with
  | nil => unfold MultiRes.keep8; simpa using h
  | cons x l ih =>
    unfold MultiRes.keep8
    split_ifs with h1
    · refine ih (Or.inl ?_)
      rintro rfl
      simp at h1
    · simp
    · exact ih (Or.inl (by simp))

theorem fuse_ok {minB maxB : F32} {sr topK : ℕ} {W : MultiRes.Weights} {nov : Option (List F32)} {c : MultiRes.Trio}
    (hk : 0 < topK) (h0 : 0 < minB) (hne : c.c512 ≠ []) (hin : CandsIn minB maxB c.c512)
    (hfin : ∀ x ∈ c.c512, x.bpm.isFinite = true) : ∃ r, MultiRes.fuse minB maxB sr topK W nov c = .ok r := by
  unfold MultiRes.fuse
  dsimp only
  rcases hL : MultiRes.keep8 [] (sortDesc MultiRes.Hyp.score
        ((c.c512.take topK).filterMap (fun t => MultiRes.hypOf minB maxB W c t.bpm))) with _ | ⟨top, rest⟩
  · exfalso
    refine keep8_ne (Or.inr ?_) hL
    intro hs
    have hs' := congrArg List.length hs
    rw [length_sortDesc, List.length_nil] at hs'
    obtain ⟨t, ts, ht⟩ := List.exists_cons_of_ne_nil hne
    have hmt : t ∈ c.c512 := by rw [ht]; simp
    have hr := hin t hmt
    have hh : ∃ h, MultiRes.hypOf minB maxB W c t.bpm = some h := by
      unfold MultiRes.hypOf
      rw [if_pos (by simp [hfin t hmt, F32.lt_of_lt_of_le h0 hr.1])]
      rcases hl : MultiRes.locals minB maxB W c t.bpm with _ | ⟨b, r⟩
      · exfalso
        have hm : (⟨t.bpm, MultiRes.prior t.bpm (MultiRes.scoreT W c t.bpm)⟩ : MultiRes.Hyp) ∈ MultiRes.locals minB maxB W c t.bpm := by
          unfold MultiRes.locals
          rw [mem_sortDesc]
          refine List.mem_map.2 ⟨⟨t.bpm, MultiRes.scoreT W c t.bpm⟩, List.mem_filter.2 ⟨by simp, ?_⟩, rfl⟩
          simp [hr.1, hr.2]
        rw [hl] at hm
        cases hm
      · exact ⟨_, rfl⟩
    obtain ⟨h, hh⟩ := hh
    have : h ∈ (c.c512.take topK).filterMap (fun t => MultiRes.hypOf minB maxB W c t.bpm) := by
      refine List.mem_filterMap.2 ⟨t, ?_, hh⟩
      rw [ht]
      obtain ⟨n, rfl⟩ : ∃ n, topK = n + 1 := ⟨topK - 1, by omega⟩
      simp
    rw [List.length_eq_zero_iff.1 hs'] at this
    cases this
  · rw [hL]; exact ⟨_, rfl⟩

theorem novelty512_ok {M : Libm} (hM : LnSane M) {spec : List (List F32)} (hs : PlainSpec spec) {sr : ℕ} (hsr : 0 < sr)
    (cfg : Option BandCfg) : ∃ n, MultiRes.novelty512 M spec sr cfg = .ok n := by
  rcases cfg with _ | c
  · exact ⟨none, rfl⟩
  obtain ⟨h1, h2, -, h4⟩ := C26_range_partial M hM spec sr c.filter hsr hs.plain (fun fr hfr => by
    have := hs.valid.2 fr hfr; have := hs.bins; omega)
  obtain ⟨a, ea, -⟩ := h4.2.1 hs.two hs.valid
  obtain ⟨b, eb, -⟩ := h1.2.1 hs.two hs.valid
  obtain ⟨d, ed, -⟩ := h2.2.1 hs.two hs.valid
  refine ⟨some (conditioned (some c) a b d), ?_⟩
  unfold MultiRes.novelty512
  dsimp only
  rw [ea, eb, ed]
  rfl

theorem sane_hop {sr h h' : ℕ} {minB maxB res : F32} (hh : 0 < h') (hp : SaneParams ⟨sr, h, minB, maxB, res⟩) :
    SaneParams ⟨sr, h', minB, maxB, res⟩ := ⟨hp.sr0, hp.sr, hh, hp.min, hp.lt, hp.fin, hp.res0, hp.res, hp.steps⟩

/-- **C24 (success)**: on ordinary inputs (the spectrograms at the three hop sizes have two or more frames of ordinary magnitude,
the tempo range and the band configuration are sane, the weights moderate) the escalation always returns an estimate: it neither
hangs, panics nor fails, and the confidence is in `[0,1]`. -/
theorem C24_succeeds (M : Libm) (sfft : List F32 → List (F32 × F32)) (fft : List F32 → ℕ → F32 × F32)
    (samples : List F32) (sr frame : ℕ) (minB maxB res : F32) (topK : ℕ) (W : MultiRes.Weights) (cfg : Option BandCfg)
    (hM : LnSane M) (hf : FftTame M fft) (hp : SaneParams ⟨sr, 512, minB, maxB, res⟩) (hlen : frame ≤ samples.length)
    (hs : ∀ hop ∈ [256, 512, 1024], ∃ spec, Chroma.computeStft M sfft samples frame hop = .ok spec ∧ PlainSpec spec)
    (hc : ∀ c, cfg = some c → TameCfg sr c) (hW : SmallWeights W) :
    ∃ N e cs, (∀ fuel, N ≤ fuel → MultiRes.fromSamples M sfft fft fuel samples sr frame minB maxB res topK W cfg = .ok (e, cs)) ∧
      InUnit e.conf ∧ cs ≠ [] := by
  have hca : ∀ c, MultiRes.active cfg = some c → TameCfg sr c := by
    intro c hc'
    unfold MultiRes.active at hc'
    rcases cfg with _ | d
    · cases hc'
    · rw [Option.filter_some] at hc'
      split_ifs at hc'
      cases hc'
      exact hc _ rfl
  obtain ⟨s1, e1, p1'⟩ := hs 256 (by simp)
  obtain ⟨s2, e2, p2'⟩ := hs 512 (by simp)
  obtain ⟨s3, e3, p3'⟩ := hs 1024 (by simp)
  obtain ⟨N1, x1, c1, k1, -⟩ := C22_ranked M fft s1 ⟨sr, 256, minB, maxB, res⟩ (MultiRes.active cfg) hM hf (sane_hop (by omega) hp) p1' hca (MultiRes.auxK topK)
  obtain ⟨N2, x2, c2, k2, ne2, -⟩ := C22_ranked M fft s2 ⟨sr, 512, minB, maxB, res⟩ (MultiRes.active cfg) hM hf hp p2' hca (Nat.max topK 1)
  obtain ⟨N3, x3, c3, k3, -⟩ := C22_ranked M fft s3 ⟨sr, 1024, minB, maxB, res⟩ (MultiRes.active cfg) hM hf (sane_hop (by omega) hp) p3' hca (MultiRes.auxK topK)
  obtain ⟨nov, hn⟩ := novelty512_ok hM p2' hp.sr0 cfg
  have hpos : 0 < Nat.max topK 1 := Nat.lt_of_lt_of_le Nat.one_pos (Nat.le_max_right _ _)
  have hc2 := ne2 hpos
  have hin : CandsIn minB maxB c2 := cands_in (k2 N2 (Nat.le_refl _))
  have h0 : 0 < minB := F32.lt_of_lt_of_le zero_lt_one hp.min
  have hfin : ∀ x ∈ c2, x.bpm.isFinite = true := fun x hx =>
    le_finite (F32.le_trans (F32.le_of_lt h0) (hin x hx).1) (hin x hx).2 hp.fin
  obtain ⟨⟨e, cs⟩, hfu⟩ := fuse_ok (sr := sr) (W := W) (nov := nov) (c := ⟨c1, c2, c3, F32.max 2 res⟩) hpos h0 hc2 hin hfin
  have hall : ∀ fuel, N1 + N2 + N3 ≤ fuel →
      MultiRes.fromSamples M sfft fft fuel samples sr frame minB maxB res topK W cfg = .ok (e, cs) := by
    intro fuel hfl
    unfold MultiRes.fromSamples
    rw [if_neg (by omega), e1, R.ok_bind, e2, R.ok_bind, e3, R.ok_bind, k1 fuel (by omega), R.ok_bind, k2 fuel (by omega),
      R.ok_bind, k3 fuel (by omega), R.ok_bind, hn, R.ok_bind]
    exact hfu
  refine ⟨N1 + N2 + N3, e, cs, hall, ?_, ?_⟩
  · exact C24_confidence_partial M sfft fft _ samples sr frame minB maxB res topK W cfg hW (fun c e => (hc c e).bonus) e cs
      (hall _ (Nat.le_refl _))
  · rw [(fuse_spec (c := ⟨c1, c2, c3, F32.max 2 res⟩) hin hfu).2.2.2]
    simpa using hc2

/-! ### Violations and non-vacuity -/

/-- a library with a flat window -/
def flatLibm : Libm := { rampLibm with cos := fun _ => 0 }

theorem flat_sane : LnSane flatLibm := ramp_sane

/-- stand-ins for the transforms -/
def plainSfft (x : List F32) : List (F32 × F32) := x.map (fun v => (v, 0))
def zeroFft (_ : List F32) (_ : ℕ) : F32 × F32 := (0, 0)

theorem zero_tame (M : Libm) : FftTame M zeroFft := by
  intro nov _ _ k
  unfold zeroFft; decide +kernel

/-- four notes of the given loudness, one every 2048 samples -/
def notes (l : List F32) : List F32 := l.flatMap (fun a => List.replicate 1024 0 ++ List.replicate 1024 a)

/-- equal weights -/
def evenWeights (w : F32) : MultiRes.Weights := ⟨w, w, w, 0.5, 0, false⟩

/-- **C24 is violated**: with a search range of 89 to 177.5 BPM, four notes are reported at 88.5 BPM, below the range: halving
checks against 70 to 120 BPM and a nearby candidate, not against the search range. -/
theorem C24_violated : ∃ e cs, MultiRes.fromSamples flatLibm plainSfft zeroFft 5 (notes [4, 2, 2, 1]) 6076 2 89 177.5 44 10
    (evenWeights 1) none = .ok (e, cs) ∧ e.bpm = 88.5 ∧ ¬ (89 : F32) ≤ e.bpm := by
  have h : (match MultiRes.fromSamples flatLibm plainSfft zeroFft 5 (notes [4, 2, 2, 1]) 6076 2 89 177.5 44 10
    (evenWeights 1) none with
    | .ok v => v.1.bpm
    | _ => 0) = 88.5 := by decide +kernel
  rcases e : MultiRes.fromSamples flatLibm plainSfft zeroFft 5 (notes [4, 2, 2, 1]) 6076 2 89 177.5 44 10
    (evenWeights 1) none with err | ⟨v, cs⟩
  · rw [e] at h; exact absurd (show (0 : F32) = 88.5 from h) (by decide +kernel)
  · rw [e] at h
    have h' : v.bpm = 88.5 := h
    exact ⟨v, cs, rfl, h', by rw [h']; decide +kernel⟩

/-- **C24 is violated by large weights**: the fused score overflows and the confidence is NaN. -/
theorem C24_violated_conf : ∃ e cs, MultiRes.fromSamples flatLibm plainSfft zeroFft 5 (notes [1, 4, 4, 1]) 6076 2 89 177.5 44 10
    (evenWeights 2.3e38) none = .ok (e, cs) ∧ e.conf = nan := by
  have h : (match MultiRes.fromSamples flatLibm plainSfft zeroFft 5 (notes [1, 4, 4, 1]) 6076 2 89 177.5 44 10
    (evenWeights 2.3e38) none with
    | .ok v => v.1.conf
    | _ => 0) = nan := by decide +kernel
  rcases e : MultiRes.fromSamples flatLibm plainSfft zeroFft 5 (notes [1, 4, 4, 1]) 6076 2 89 177.5 44 10
    (evenWeights 2.3e38) none with err | ⟨v, cs⟩
  · rw [e] at h; exact absurd (show (0 : F32) = nan from h) (by decide +kernel)
  · rw [e] at h; exact ⟨v, cs, rfl, h⟩

instance (s : List (List F32)) : Decidable (Valid s) := by unfold Valid; infer_instance
instance (x : F32) : Decidable (Plain x) := by unfold Plain; infer_instance

theorem spec_of {r : R (List (List F32))} (h : (match r with
    | .ok s => decide (Valid s) && decide (2 ≤ s.length) && decide (s.length ≤ 2 ^ 62) && decide (2 ≤ (s.headD []).length) &&
        decide ((s.headD []).length ≤ 2 ^ 31) && s.all (fun fr => fr.all (fun x => decide (Plain x)))
    | _ => false) = true) : ∃ s, r = .ok s ∧ PlainSpec s := by
  rcases r with e | s
  · cases h
  · simp only [Bool.and_eq_true, decide_eq_true_eq, List.all_eq_true] at h
    obtain ⟨⟨⟨⟨⟨h1, h2⟩, h3⟩, h4⟩, h5⟩, h6⟩ := h
    exact ⟨s, rfl, h1, h2, h3, h4, h5, fun fr hfr x hx => by simpa using h6 fr hfr x hx⟩

/-- ordinary input: the hypotheses of `C24_succeeds` and `C24_confidence_partial` -/
example : LnSane flatLibm ∧ FftTame flatLibm zeroFft ∧ SaneParams ⟨6076, 512, 89, 177.5, 44⟩ ∧ 2 ≤ (notes [4, 2, 2, 1]).length ∧
    (∀ hop ∈ [256, 512, 1024], ∃ spec, Chroma.computeStft flatLibm plainSfft (notes [4, 2, 2, 1]) 2 hop = .ok spec ∧ PlainSpec spec) ∧
    TameCfg 44100 demoBands ∧ SmallWeights (evenWeights 1) := by
  refine ⟨flat_sane, zero_tame _, by constructor <;> decide +kernel, by decide +kernel, ?_, ?_, ?_⟩
  · intro hop hh
    simp only [List.mem_cons, List.not_mem_nil, or_false] at hh
    rcases hh with rfl | rfl | rfl
    · exact spec_of (by decide +kernel)
    · exact spec_of (by decide +kernel)
    · exact spec_of (by decide +kernel)
  · constructor <;> first | decide +kernel | (unfold Weight; decide +kernel)
  · constructor <;> exact nb_mono (m := 0) (by norm_num) (nb_le_one (by decide +kernel) (by decide +kernel))

end Verif.Props
