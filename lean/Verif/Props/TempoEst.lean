/-
Tempogram estimator (C21, C22, C75): src/features/period/tempogram.rs, the public functions.
-/
import Verif.Props.TempoPick
import Verif.Props.NoveltyMel
import Verif.Props.NoveltyRise

namespace Verif.Props
open Verif F32 Tempogram Novelty

/-! ### What the estimator hands to the selection -/

theorem decide_inv {p : Params} {cfg : Option BandCfg} {full : Variant} {others : List Variant} {r}
    (h : decideBpm p cfg full others = .ok r) :
    ∃ pf pa, pf = primary full.fft ∧ pa = primary full.ac ∧ select p.minB p.maxB pf pa
      ((uniq (folded p.minB p.maxB (seeds (full :: others) pf pa))).map (scoreOne cfg (full :: others) p.res)) = .ok r := by
  unfold decideBpm at h
  dsimp only at h
  split_ifs at h
  exact ⟨_, _, rfl, rfl, h⟩

theorem cands_sound (p : Params) (cfg : Option BandCfg) (vs : List Variant) (ss : List F32) :
    Sound p ((uniq (folded p.minB p.maxB ss)).map (scoreOne cfg vs p.res)) := by
  obtain ⟨h1, h2, -⟩ := uniq_spec (l := folded p.minB p.maxB ss) (fun x hx => (folded_mem.1 hx).2.1)
  refine ⟨fun c hc => ?_, ?_⟩
  · obtain ⟨b, hb, rfl⟩ := List.mem_map.1 hc
    have := folded_mem.1 (h1 b hb)
    exact ⟨⟨this.2.2.1, this.2.2.2⟩, this.2.1⟩
  · rw [List.pairwise_map]
    exact h2

theorem impl_inv {M : Libm} {fft} {fuel : ℕ} {spec : List (List F32)} {p : Params} {cfg : Option BandCfg} {r}
    (h : impl M fft fuel spec p cfg = .ok r) : ∃ full bands mels, decideBpm p cfg full (bands ++ mels) = .ok r ∧
      bandVariants M fft fuel p spec cfg = .ok bands ∧ melVariants M fft fuel p spec cfg = .ok mels := by
  unfold impl at h
  split_ifs at h with h0
  obtain ⟨nov, -, h⟩ := R.bind_eq_ok.1 h
  split_ifs at h with h1
  obtain ⟨full, -, h⟩ := R.bind_eq_ok.1 h
  obtain ⟨bands, hb, h⟩ := R.bind_eq_ok.1 h
  obtain ⟨mels, hm, h⟩ := R.bind_eq_ok.1 h
  exact ⟨full, bands, mels, h, hb, hm⟩

theorem bandVariant_len {M : Libm} {fft} {fuel : ℕ} {p : Params} {spec : List (List F32)} {c : BandCfg} {s e : ℕ} {w : F32}
    {l : List Variant} (h : bandVariant M fft fuel p spec c s e w = .ok l) : l.length ≤ 1 := by
  unfold bandVariant at h
  split_ifs at h with h1 h2
  · cases h; simp
  · cases h; simp
  obtain ⟨a, -, h⟩ := R.bind_eq_ok.1 h
  obtain ⟨b, -, h⟩ := R.bind_eq_ok.1 h
  obtain ⟨d, -, h⟩ := R.bind_eq_ok.1 h
  dsimp only at h
  split_ifs at h with h3
  · cases h; simp
  · obtain ⟨v, -, h⟩ := R.bind_eq_ok.1 h
    cases h; simp

theorem variants_len {M : Libm} {fft} {fuel : ℕ} {p : Params} {spec : List (List F32)} {cfg : Option BandCfg}
    {bands mels : List Variant} (hb : bandVariants M fft fuel p spec cfg = .ok bands)
    (hm : melVariants M fft fuel p spec cfg = .ok mels) : (bands ++ mels).length ≤ 4 := by
  have h1 : bands.length ≤ 3 := by
    unfold bandVariants at hb
    rcases cfg with _ | c
    · cases hb; simp
    dsimp only at hb
    split_ifs at hb
    · obtain ⟨v1, e1, hb⟩ := R.bind_eq_ok.1 hb
      obtain ⟨v2, e2, hb⟩ := R.bind_eq_ok.1 hb
      obtain ⟨v3, e3, hb⟩ := R.bind_eq_ok.1 hb
      cases hb
      have := bandVariant_len e1
      have := bandVariant_len e2
      have := bandVariant_len e3
      simp; omega
    · cases hb; simp
  have h2 : mels.length ≤ 1 := by
    unfold melVariants at hm
    rcases cfg with _ | c
    · cases hm; simp
    dsimp only at hm
    split_ifs at hm
    · obtain ⟨v1, e1, hm⟩ := R.bind_eq_ok.1 hm
      split_ifs at hm
      · cases hm; simp
      · obtain ⟨v2, e2, hm⟩ := R.bind_eq_ok.1 hm
        cases hm; simp
    · cases hm; simp
  simp; omega

/-! ### C21: range -/

theorem impl_spec {M : Libm} {fft} {fuel : ℕ} {spec : List (List F32)} {p : Params} {cfg : Option BandCfg} {e cs}
    (h : impl M fft fuel spec p cfg = .ok (e, cs)) :
    ∃ vs ss, vs.length ≤ 5 ∧ ∃ l : List Scored, l = (uniq (folded p.minB p.maxB ss)).map (scoreOne cfg vs p.res) ∧ Sound p l ∧
    (∃ c ∈ l, c.bpm = e.bpm ∧ e.conf = confidence c (sortDesc Scored.score l)) ∧ UnitOrNaN e.conf ∧ e.agreement ≤ 2 ∧
    cs.map CandDbg.bpm = (sortDesc Scored.score l).map Scored.bpm ∧
    cs.map CandDbg.score = (sortDesc Scored.score l).map Scored.score ∧
    (∀ c ∈ cs, c.selected = true ↔ c.bpm = e.bpm) ∧ (cs.filter (fun c => c.selected)).length = 1 := by
  obtain ⟨full, bands, mels, h, hb, hm⟩ := impl_inv h
  obtain ⟨pf, pa, -, -, h⟩ := decide_inv h
  refine ⟨full :: (bands ++ mels), _, ?_, _, rfl, cands_sound _ _ _ _, select_spec (cands_sound _ _ _ _) h⟩
  have := variants_len hb hm
  rw [List.length_cons]; omega

theorem cs_bpm {p : Params} {l : List Scored} {cs : List CandDbg} (hl : Sound p l)
    (h : cs.map CandDbg.bpm = (sortDesc Scored.score l).map Scored.bpm) :
    (∀ c ∈ cs, InBpm p c.bpm ∧ c.bpm.isFinite = true) ∧ cs.Pairwise (fun a b => Apart a.bpm b.bpm) := by
  have hperm := sortDesc_perm (key := Scored.score) l
  constructor
  · intro c hc
    have : c.bpm ∈ (sortDesc Scored.score l).map Scored.bpm := h ▸ List.mem_map_of_mem hc
    obtain ⟨d, hd, e⟩ := List.mem_map.1 this
    rw [← e]; exact hl.1 d (hperm.mem_iff.1 hd)
  · have : (cs.map CandDbg.bpm).Pairwise Apart := by
      rw [h, List.pairwise_map]
      exact (hperm.pairwise_iff (fun h => apart_comm.1 h)).2 hl.2
    rwa [List.pairwise_map] at this

/-- **C21**: whatever the spectrogram, the configuration, the FFT and the library functions: a returned BPM and all
returned candidates are inside `[min_bpm, max_bpm]`, the confidence is in `[0,1]` or NaN, and at most 2 methods agree. -/
theorem C21_range (M : Libm) (fft : List F32 → ℕ → F32 × F32) (fuel : ℕ) (spec : List (List F32)) (p : Params)
    (cfg : Option BandCfg) (topN : ℕ) :
    (∀ e, estimate M fft fuel spec p cfg = .ok e → InBpm p e.bpm ∧ UnitOrNaN e.conf ∧ e.agreement ≤ 2) ∧
    (∀ e cs, estimateCands M fft fuel spec p topN cfg = .ok (e, cs) →
      InBpm p e.bpm ∧ UnitOrNaN e.conf ∧ e.agreement ≤ 2 ∧ ∀ c ∈ cs, InBpm p c.bpm) := by
  have key : ∀ e cs, impl M fft fuel spec p cfg = .ok (e, cs) → (InBpm p e.bpm ∧ UnitOrNaN e.conf ∧ e.agreement ≤ 2) ∧
      ∀ c ∈ cs, InBpm p c.bpm := by
    intro e cs h
    obtain ⟨vs, ss, -, l, -, hl, ⟨c, hc, hce, -⟩, h1, h2, h3, -⟩ := impl_spec h
    refine ⟨⟨hce ▸ (hl.1 c hc).1, h1, h2⟩, fun c hc => ((cs_bpm hl h3).1 c hc).1⟩
  constructor
  · intro e h
    obtain ⟨⟨e', cs⟩, hi, he⟩ := R.bind_eq_ok.1 h
    cases he
    exact (key e' cs hi).1
  · intro e cs h
    obtain ⟨⟨e', cs'⟩, hi, he⟩ := R.bind_eq_ok.1 h
    cases he
    obtain ⟨h1, h2⟩ := key e' cs' hi
    refine ⟨h1.1, h1.2.1, h1.2.2, fun c hc => ?_⟩
    dsimp only at hc
    split_ifs at hc
    · cases hc
    · exact h2 c (List.mem_of_mem_take hc)

/-! ### Scores -/

/-- the bonus is small enough not to overflow -/
def BonusOk (cfg : Option BandCfg) : Prop := ∀ c, cfg = some c → c.bonus = nan ∨ c.bonus ≤ rnd (pow2 80)

theorem g_two : OnGrid (2 : ℚ) ∧ |(2 : ℚ)| < pow2 128 := by decide +kernel
theorem g_p (n : ℤ) (h1 : -149 ≤ n) (h2 : n < 128) : OnGrid (pow2 n) ∧ |pow2 n| < pow2 128 :=
  ⟨onGrid_pow2 h1, by rw [abs_of_pos (pow2_pos _)]; exact pow2_lt h2⟩

theorem mixed_range {an fn : F32} (ha : InUnit an) (hf : InUnit fn) : Bd (0.55 * an + 0.45 * fn) 2 := by
  have h1 : Bd (0.55 : F32) 1 := bd_unit (by unfold InUnit; decide +kernel)
  have h2 : Bd (0.45 : F32) 1 := bd_unit (by unfold InUnit; decide +kernel)
  exact bd_add (bd_mul h1 (bd_unit ha) (C := 1) (by norm_num) grid_one) (bd_mul h2 (bd_unit hf) (C := 1) (by norm_num) grid_one)
    (by norm_num) g_two

theorem withBonus_range {cfg : Option BandCfg} (hc : BonusOk cfg) {n : ℕ} (hn : n ≤ 5) {s : F32} (hs : Bd s 2) :
    Bd (withBonus cfg n s) (pow2 100) := by
  have hs' : Bd s (pow2 100) := by
    obtain ⟨v, hv, rfl, v0, v1⟩ := hs
    refine ⟨v, hv, rfl, v0, le_trans v1 ?_⟩
    rw [pow2_eq]; norm_num
  unfold withBonus
  split_ifs with h1 h2
  · obtain ⟨g, e80⟩ := g80w
    have hb : Bd (bonusOf cfg) (pow2 80) := by
      refine bd_of (hA := g) (le_max_right zero_ne_nan) ?_
      unfold bonusOf
      rw [← e80]
      rcases cfg with _ | c
      · decide +kernel
      · rcases hc c rfl with e | e
        · show F32.max c.bonus 0 ≤ _
          rw [e]; decide +kernel
        · show F32.max c.bonus 0 ≤ _
          exact F32.max_le e (by decide +kernel)
    have hk : Bd (F32.ofNat n - 1) 8 := by
      have : ∀ n ≤ 5, 2 ≤ n → 0 ≤ F32.ofNat n - 1 ∧ F32.ofNat n - 1 ≤ 8 := by decide +kernel
      obtain ⟨k0, k1⟩ := this n hn h2
      have e8 : (8 : F32) = fin 8 (by decide +kernel) := by decide +kernel
      rw [e8] at k1
      exact bd_of k0 k1
    have hm := bd_mul hb hk (C := pow2 83) (by rw [pow2_eq, pow2_eq]; norm_num) (g_p 83 (by norm_num) (by norm_num))
    have h1' : Bd (1 : F32) 1 := ⟨1, grid_one, one_def, by norm_num, le_refl _⟩
    have ha := bd_add h1' hm (C := pow2 84) (by rw [pow2_eq, pow2_eq]; norm_num) (g_p 84 (by norm_num) (by norm_num))
    exact bd_mul hs ha (by rw [pow2_eq, pow2_eq]; norm_num) (g_p 100 (by norm_num) (by norm_num))
  · exact hs'
  · exact hs'

theorem withPrior_range {b s : F32} (hs : Bd s (pow2 100)) : Bd (withPrior b s) (pow2 100) := by
  have h1 : Bd (0.80 : F32) 1 := bd_unit (by unfold InUnit; decide +kernel)
  have h2 : Bd (0.90 : F32) 1 := bd_unit (by unfold InUnit; decide +kernel)
  unfold withPrior
  split_ifs
  · exact bd_mul hs h1 (by rw [_root_.mul_one]) (g_p 100 (by norm_num) (by norm_num))
  · exact bd_mul hs h2 (by rw [_root_.mul_one]) (g_p 100 (by norm_num) (by norm_num))
  · exact hs

theorem supportBands_le (vs : List Variant) (res bpm thr : F32) : supportBands vs res bpm thr ≤ vs.length := by
  unfold supportBands
  exact le_trans (List.length_filter_le _ _) (List.length_filter_le _ _)

theorem score_not_inf {cfg : Option BandCfg} (hc : BonusOk cfg) {vs : List Variant} (hv : vs.length ≤ 5) (res bpm : F32) :
    ((scoreOne cfg vs res bpm).score = nan ∨ Bd (scoreOne cfg vs res bpm).score (pow2 100)) ∧
    (InUnit (scoreOne cfg vs res bpm).fftNorm → InUnit (scoreOne cfg vs res bpm).acNorm →
      Bd (scoreOne cfg vs res bpm).score (pow2 100)) := by
  have hn := le_trans (supportBands_le vs res bpm (threshold cfg)) hv
  unfold scoreOne
  dsimp only
  have key : ∀ x : F32, x = nan → ∀ n, withPrior bpm (withBonus cfg n x) = nan := by
    rintro x rfl n
    unfold withPrior withBonus
    split_ifs <;> simp
  generalize accumulate (scoring cfg vs) (fun v => supFft v bpm) / weightSum (scoring cfg vs) = F
  generalize accumulate (scoring cfg vs) (fun v => supAc v res bpm) / weightSum (scoring cfg vs) = A
  have hu : ∀ x : F32, F32.clamp x 0 1 = nan ∨ InUnit (F32.clamp x 0 1) := by
    intro x
    by_cases hx : x = nan
    · left; rw [hx, clamp_nan]
    · right; exact clamp01 hx
  refine ⟨?_, fun h1 h2 => withPrior_range (withBonus_range hc hn (mixed_range h2 h1))⟩
  rcases hu F with e | hF
  · left; apply key; rw [e]; simp
  rcases hu A with e | hA
  · left; apply key; rw [e]; simp
  exact Or.inr (withPrior_range (withBonus_range hc hn (mixed_range hA hF)))

/-- **C21 (confidence, partial)**: the confidence is in `[0,1]` unless the consensus bonus of the band-fusion configuration
exceeds `2^80`.  Missing: such bonuses, see `C21_violated`. -/
theorem C21_confidence_partial (M : Libm) (fft : List F32 → ℕ → F32 × F32) (fuel : ℕ) (spec : List (List F32)) (p : Params)
    (cfg : Option BandCfg) (hc : BonusOk cfg) (e : Period.Est) (h : estimate M fft fuel spec p cfg = .ok e) : InUnit e.conf := by
  obtain ⟨⟨e', cs⟩, hi, he⟩ := R.bind_eq_ok.1 h
  cases he
  obtain ⟨vs, ss, hv, l, hl, -, ⟨c, hcl, -, hconf⟩, -⟩ := impl_spec hi
  dsimp only
  rw [hconf]
  apply (confidence_range _ _).2
  rw [hl] at hcl
  obtain ⟨b, -, rfl⟩ := List.mem_map.1 hcl
  rcases (score_not_inf hc hv p.res b).1 with e | ⟨v, hv, e, -⟩ <;> rw [e] <;> simp

/-- plain tempogram (no band fusion) -/
example : BonusOk none := by intro c h; cases h

/-! ### C22 -/

theorem estimateCands_inv {M : Libm} {fft} {fuel : ℕ} {spec : List (List F32)} {p : Params} {cfg : Option BandCfg} {topN : ℕ}
    {e cs} (h : estimateCands M fft fuel spec p topN cfg = .ok (e, cs)) :
    ∃ all, impl M fft fuel spec p cfg = .ok (e, all) ∧ cs = all.take topN := by
  obtain ⟨⟨e', all⟩, hi, he⟩ := R.bind_eq_ok.1 h
  cases he
  refine ⟨all, hi, ?_⟩
  dsimp only
  split_ifs with h0
  · rw [h0]; simp
  · rfl

/-- **C22**: any two candidates are at least 0.75 BPM apart, there are at most `top_n`, a candidate is flagged `selected`
exactly when its BPM is the reported one (equivalently: is within 0.75 BPM of it), and the full ranking, of which the list
is a prefix, contains exactly one selected candidate. -/
theorem C22_candidates (M : Libm) (fft : List F32 → ℕ → F32 × F32) (fuel : ℕ) (spec : List (List F32)) (p : Params)
    (cfg : Option BandCfg) (topN : ℕ) (e : Period.Est) (cs : List CandDbg)
    (h : estimateCands M fft fuel spec p topN cfg = .ok (e, cs)) :
    cs.Pairwise (fun a b => Apart a.bpm b.bpm) ∧ cs.length ≤ topN ∧
    (∀ c ∈ cs, c.selected = true ↔ c.bpm = e.bpm) ∧ (∀ c ∈ cs, c.selected = true ↔ ¬ Apart c.bpm e.bpm) ∧
    ∃ all : List CandDbg, (∀ n, estimateCands M fft fuel spec p n cfg = .ok (e, all.take n)) ∧ cs = all.take topN ∧
      (all.filter (fun c => c.selected)).length = 1 := by
  obtain ⟨all, hi, rfl⟩ := estimateCands_inv h
  obtain ⟨vs, ss, -, l, -, hl, -, -, -, h3, -, h5, h6⟩ := impl_spec hi
  obtain ⟨hb1, hb2⟩ := cs_bpm hl h3
  have hsub : (all.take topN).Sublist all := List.take_sublist _ _
  obtain ⟨s, hs⟩ := List.exists_mem_of_length_pos (l := all.filter (fun c => c.selected)) (by omega)
  obtain ⟨hs1, hs2⟩ := List.mem_filter.1 hs
  refine ⟨hb2.sublist hsub, List.length_take_le _ _, fun c hc => h5 c (hsub.subset hc), fun c hc => ?_, all, ?_, rfl, h6⟩
  · have hc' := hsub.subset hc
    rw [h5 c hc']
    constructor
    · intro e; rw [← e]; exact not_apart_self (hb1 c hc').2
    · intro hna
      have he := (h5 s hs1).1 hs2
      by_contra hne
      have : Std.Symm (fun a b : CandDbg => Apart a.bpm b.bpm) := ⟨fun _ _ h => apart_comm.1 h⟩
      have hcs : c ≠ s := by rintro rfl; exact hne he
      exact hna (he ▸ hb2.forall hc' hs1 hcs)
  · intro n
    unfold estimateCands
    rw [hi, R.ok_bind]
    dsimp only
    split_ifs with h0
    · rw [h0]; simp
    · rfl

theorem full_ranking {M : Libm} {fft} {fuel : ℕ} {spec : List (List F32)} {p : Params} {cfg : Option BandCfg} {e}
    {all : List CandDbg} (h : ∀ n, estimateCands M fft fuel spec p n cfg = .ok (e, all.take n)) :
    impl M fft fuel spec p cfg = .ok (e, all) := by
  obtain ⟨all', hi, e1⟩ := estimateCands_inv (h (all.length + 1))
  obtain ⟨all'', hi', e2⟩ := estimateCands_inv (h all'.length)
  rw [hi] at hi'
  cases hi'
  rw [List.take_of_length_le (Nat.le_succ _)] at e1
  rw [List.take_length] at e2
  have hl : all'.length ≤ all.length := by
    have := congrArg List.length e2
    rw [List.length_take] at this
    omega
  rw [List.take_of_length_le (by omega)] at e1
  rw [e1]; exact hi

/-- **C22 (ranking, partial)**: the candidates are sorted by non-increasing score if no score is NaN.  See `C22_ranked` for
inputs for which no score is NaN; missing: the others. -/
theorem C22_ranked_partial (M : Libm) (fft : List F32 → ℕ → F32 × F32) (fuel : ℕ) (spec : List (List F32)) (p : Params)
    (cfg : Option BandCfg) (topN : ℕ) (e : Period.Est) (all : List CandDbg)
    (h : ∀ n, estimateCands M fft fuel spec p n cfg = .ok (e, all.take n)) (hn : ∀ c ∈ all, c.score ≠ nan) :
    (all.take topN).Pairwise (fun a b => b.score ≤ a.score) := by
  have hi := full_ranking h
  obtain ⟨vs, ss, -, l, -, hl, -, -, -, -, h4, -⟩ := impl_spec hi
  have : (all.map CandDbg.score).Pairwise (fun a b => b ≤ a) := by
    rw [h4, List.pairwise_map]
    refine sortDesc_pairwise (fun c hc => ?_)
    have : c.score ∈ all.map CandDbg.score := h4 ▸ List.mem_map_of_mem (mem_sortDesc.2 hc)
    obtain ⟨d, hd, e⟩ := List.mem_map.1 this
    rw [← e]; exact hn d hd
  rw [List.pairwise_map] at this
  exact this.sublist (List.take_sublist _ _)

/-! ### C75 -/

theorem confidence_zero {best : Scored} {l : List Scored} {s : Scored} (hs : l[1]? = some s) (h : best.score ≤ s.score) :
    confidence best l = 0 := by
  unfold confidence
  rw [hs]
  dsimp only [Option.map_some, Option.getD_some]
  split_ifs with h1
  · have hp : (0 : F32) < best.score := F32.lt_trans (by decide +kernel) h1
    rcases nonneg_cases (F32.le_of_lt hp) with e | ⟨v, hv, e, v0⟩
    · rw [e] at h ⊢
      have : s.score = inf false := by
        revert h
        rcases s.score with _ | (_ | _) | ⟨w, hw⟩ <;> simp
      rw [this]
      decide +kernel
    · have e3 : F32.max (best.score - s.score) 0 = 0 := by
        have h2 := F32.le_trans (F32.le_of_lt hp) h
        rw [e] at h ⊢
        rcases nonneg_cases h2 with e2 | ⟨w, hw, e2, w0⟩
        · rw [e2]
          show F32.max (inf true) 0 = 0
          decide +kernel
        · rw [e2] at h ⊢
          rw [fin_le_fin] at h
          rw [sub_fin]
          exact F32.le_antisymm (F32.max_le (by rw [zero_def]; exact rnd_le_fin (by linarith)) (by decide +kernel))
            (le_max_right zero_ne_nan)
      rw [e3]
      rw [e, zero_def, fin_lt_fin] at hp
      rw [e, zero_def, div_fin hp.ne', zero_div, rnd_zero]
      decide +kernel
  · rfl

/-- **C75 (octave folding)**: the reported tempo is the first of the ranking, unless that one is above 180 BPM, half of it
is within the range, and a candidate within 0.75 BPM of the half exists that neither method finds much weaker; then the first
such candidate of the ranking is reported. -/
theorem C75_fold (M : Libm) (fft : List F32 → ℕ → F32 × F32) (fuel : ℕ) (spec : List (List F32)) (p : Params)
    (cfg : Option BandCfg) (e : Period.Est) (all : List CandDbg)
    (h : ∀ n, estimateCands M fft fuel spec p n cfg = .ok (e, all.take n)) :
    ∃ top, all.head? = some top ∧
      let near := all.find? (fun c => decide ((c.bpm - top.bpm / 2).abs < 0.75))
      (180 < top.bpm ∧ p.minB ≤ top.bpm / 2 ∧ top.bpm / 2 ≤ p.maxB → ∀ f, near = some f →
        ¬ (2 < (top.acNorm + 1e-6) / (f.acNorm + 1e-6) ∧ 2 < (top.fftNorm + 1e-6) / (f.fftNorm + 1e-6)) → e.bpm = f.bpm) ∧
      (e.bpm ≠ top.bpm → 180 < top.bpm ∧ p.minB ≤ top.bpm / 2 ∧ top.bpm / 2 ≤ p.maxB ∧ ∃ f, near = some f ∧ e.bpm = f.bpm ∧
        ¬ (2 < (top.acNorm + 1e-6) / (f.acNorm + 1e-6) ∧ 2 < (top.fftNorm + 1e-6) / (f.fftNorm + 1e-6))) := by
  obtain ⟨full, bands, mels, hd, -, -⟩ := impl_inv (full_ranking h)
  obtain ⟨pf, pa, -, -, hs⟩ := decide_inv hd
  unfold select at hs
  dsimp only at hs
  generalize sortDesc Scored.score _ = L at hs
  rcases L with _ | ⟨top, rest⟩
  · cases hs
  simp only [Except.ok.injEq, Prod.mk.injEq] at hs
  obtain ⟨he, hall⟩ := hs
  subst hall
  refine ⟨_, rfl, ?_⟩
  dsimp only
  rw [List.find?_map, ← he]
  dsimp only
  have hcomp : ((fun c : CandDbg => decide ((c.bpm - top.bpm / 2).abs < 0.75)) ∘ fun c : Scored =>
      (⟨c.bpm, c.score, c.fftNorm, c.acNorm, decide ((c.bpm - (octave p.minB p.maxB top (top :: rest)).bpm).abs < 0.75)⟩ : CandDbg)) =
      fun c : Scored => decide ((c.bpm - top.bpm / 2).abs < 0.75) := rfl
  rw [hcomp]
  have ho : octave p.minB p.maxB top (top :: rest) = if 180 < top.bpm then
      if p.minB ≤ top.bpm / 2 ∧ top.bpm / 2 ≤ p.maxB then
      match (top :: rest).find? (fun c => decide ((c.bpm - top.bpm / 2).abs < 0.75)) with
      | none => top
      | some f => if 2 < (top.acNorm + 1e-6) / (f.acNorm + 1e-6) ∧ 2 < (top.fftNorm + 1e-6) / (f.fftNorm + 1e-6) then top else f
      else top else top := rfl
  rw [ho]
  constructor
  · rintro ⟨a1, a2⟩ f hf a3
    rcases hF : (top :: rest).find? (fun c => decide ((c.bpm - top.bpm / 2).abs < 0.75)) with _ | g
    · rw [hF] at hf; cases hf
    · rw [hF] at hf
      cases hf
      rw [if_pos a1, if_pos a2, hF]
      dsimp only at a3 ⊢
      rw [if_neg a3]
  · intro hne
    split_ifs at hne ⊢ with c1 c2
    · refine ⟨c1, c2.1, c2.2, ?_⟩
      rcases hF : (top :: rest).find? (fun c => decide ((c.bpm - top.bpm / 2).abs < 0.75)) with _ | g
      · rw [hF] at hne; exact absurd rfl hne
      · rw [hF] at hne
        dsimp only at hne
        split_ifs at hne with c3
        · exact absurd rfl hne
        · rw [hF]; exact ⟨_, rfl, by dsimp only; rw [if_neg c3], c3⟩
    · exact absurd rfl hne
    · exact absurd rfl hne

/-- **C75**: a positive confidence is reported only for the top-ranked candidate: whenever octave folding replaces the
winner by a lower-ranked candidate, the reported confidence is 0. -/
theorem C75_top (M : Libm) (fft : List F32 → ℕ → F32 × F32) (fuel : ℕ) (spec : List (List F32)) (p : Params)
    (cfg : Option BandCfg) (topN : ℕ) (e : Period.Est) (all : List CandDbg)
    (h : ∀ n, estimateCands M fft fuel spec p n cfg = .ok (e, all.take n)) (hn : ∀ c ∈ all, c.score ≠ nan)
    (hc : 0 < e.conf) (ht : 0 < topN) :
    ∃ c, (all.take topN).head? = some c ∧ c.bpm = e.bpm ∧ c.selected = true := by
  have hi := full_ranking h
  obtain ⟨vs, ss, -, l, -, hl, ⟨b, hb, hbe, hconf⟩, -, -, h3, h4, h5, -⟩ := impl_spec hi
  have hsorted : (sortDesc Scored.score l).Pairwise (fun a b => b.score ≤ a.score) := by
    refine sortDesc_pairwise (fun c hc => ?_)
    have : c.score ∈ all.map CandDbg.score := h4 ▸ List.mem_map_of_mem (mem_sortDesc.2 hc)
    obtain ⟨d, hd, e⟩ := List.mem_map.1 this
    rw [← e]; exact hn d hd
  have hb' : b ∈ sortDesc Scored.score l := mem_sortDesc.2 hb
  have hnan : b.score ≠ nan := by
    have : b.score ∈ all.map CandDbg.score := h4 ▸ List.mem_map_of_mem hb'
    obtain ⟨d, hd, e⟩ := List.mem_map.1 this
    rw [← e]; exact hn d hd
  generalize sortDesc Scored.score l = L at h3 h4 hsorted hb' hconf
  rcases L with _ | ⟨top, rest⟩
  · cases hb'
  have htop : b = top := by
    rcases List.mem_cons.1 hb' with hb' | hb'
    · exact hb'
    exfalso
    rcases rest with _ | ⟨s, rest⟩
    · cases hb'
    have : confidence b (top :: s :: rest) = 0 := by
      refine confidence_zero (s := s) rfl ?_
      rcases List.mem_cons.1 hb' with rfl | hb'
      · exact F32.le_refl hnan
      · exact (List.pairwise_cons.1 (List.pairwise_cons.1 hsorted).2).1 b hb'
    rw [hconf, this] at hc
    exact F32.lt_irrefl _ hc
  subst htop
  rcases all with _ | ⟨a, all⟩
  · simp at h3
  · obtain ⟨k, rfl⟩ : ∃ k, topN = k + 1 := ⟨topN - 1, by omega⟩
    have ha : a.bpm = e.bpm := by
      rw [← hbe]
      simpa using (List.cons.inj h3).1
    exact ⟨a, rfl, ha, (h5 a (by simp)).2 ha⟩

-- 190 BPM leads, 95 BPM is supported as well by the autocorrelation: 95 is reported, without confidence; 170 BPM is kept
example : (match select 40 240 0 0 [⟨190, 1, 1, 0.5⟩, ⟨95, 0.8, 0.2, 0.5⟩] with | .ok r => decide (r.1.bpm = 95 ∧ r.1.conf = 0) | _ => false) =
      true ∧
    (match select 40 240 0 0 [⟨170, 1, 1, 0.5⟩, ⟨85, 0.8, 0.2, 0.5⟩] with | .ok r => decide (r.1.bpm = 170 ∧ 0 < r.1.conf) | _ => false) =
      true := by decide +kernel

end Verif.Props
