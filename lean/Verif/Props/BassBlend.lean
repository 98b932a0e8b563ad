/-
C82: the bass-weighted harmonic pitch-class profile (extractor.rs lines 1154-1239).
-/
import Verif.Props.HpcpPeaks

namespace Verif.Props
open Verif F32 Hpcp Chroma

/-- scale to unit length unless the length is negligible -/
def scaled (c : List F32) : List F32 :=
  if 1e-10 < F32.sqrt (F32.sum (c.map (fun x => x * x))) then c.map (fun x => x / F32.sqrt (F32.sum (c.map (fun x => x * x)))) else c

theorem scaled_eq (c : List F32) : scaled c = unitOrKeep c := rfl

/-- the settings of the bass profile: at most twelve peaks -/
def bassCfg (g : Cfg) : Cfg := { g with peaks := min (max g.peaks 1) 12 }

/-- **C82, composition.** The blended extractor gives, frame by frame, the profile that the plain extractor gives, mixed entry
by entry with the profile of the bass band (at most twelve peaks), scaled to unit length; the energies are those of the plain
extractor.  No assumption on values or settings. -/
theorem C82_composition (M : Libm) (powi : F32 → ℕ → F32) (sel : ℕ → List (ℕ × F32) → List (ℕ × F32)) (g : Cfg)
    (bassFmin bassFmax weight : F32) (spec : List (List F32)) (fs : List (List F32)) (es : List F32)
    (h : hpcpOfSpec M powi sel g spec = .ok (fs, es)) :
    ∃ cs, bassBlend M powi sel g bassFmin bassFmax weight spec = .ok (cs, es) ∧ cs.length = fs.length ∧
      ∀ (i : ℕ) (fr c : List F32), spec[i]? = some fr → cs[i]? = some c → ∃ full bass : List F32, fs[i]? = some full ∧
        frameToHpcp M powi sel (bassCfg g) bassFmin bassFmax fr = .ok bass ∧ full.length = 12 ∧ bass.length = 12 ∧
        c = scaled ((List.range 12).map (fun k =>
          (1 - F32.clamp weight 0 1) * full.getD k 0 + F32.clamp weight 0 1 * bass.getD k 0)) := by
  unfold hpcpOfSpec at h
  by_cases hne : spec = []
  · rw [if_pos hne] at h
    injection h with h
    obtain ⟨h1, h2⟩ := Prod.mk.inj h
    subst h1 h2
    refine ⟨[], by unfold bassBlend; rw [if_pos hne], rfl, fun i fr c hi => ?_⟩
    rw [hne] at hi
    simp at hi
  rw [if_neg hne] at h
  obtain ⟨u, hck, h⟩ := R.bind_eq_ok.1 h
  obtain ⟨cs, hm, h⟩ := R.bind_eq_ok.1 h
  injection h with h
  obtain ⟨h1, h2⟩ := Prod.mk.inj h
  subst h1 h2
  obtain ⟨fs', ef, hf⟩ := mapM_total (f := frameToHpcp M powi sel g FMIN FMAX)
    (P := fun fr c => frameToHpcp M powi sel g FMIN FMAX fr = .ok c ∧ c.length = 12) (spec := spec)
    (fun fr _ => by obtain ⟨c, e, l⟩ := hpcp_len M powi sel g FMIN FMAX fr; exact ⟨c, e, e, l⟩)
  rw [hm] at ef
  injection ef with ef
  subst ef
  obtain ⟨bs, eb, hb⟩ := mapM_total (f := fun fr => do
      let full ← frameToHpcp M powi sel g FMIN FMAX fr
      let bass ← frameToHpcp M powi sel { g with peaks := Nat.min (Nat.max g.peaks 1) 12 } bassFmin bassFmax fr
      pure (blend (F32.clamp weight 0 1) full bass))
    (P := fun fr c => ∃ full bass, frameToHpcp M powi sel g FMIN FMAX fr = .ok full ∧
      frameToHpcp M powi sel (bassCfg g) bassFmin bassFmax fr = .ok bass ∧ full.length = 12 ∧ bass.length = 12 ∧
      c = blend (F32.clamp weight 0 1) full bass) (spec := spec)
    (fun fr _ => by
      obtain ⟨a, ea, la⟩ := hpcp_len M powi sel g FMIN FMAX fr
      obtain ⟨b, eb, lb⟩ := hpcp_len M powi sel (bassCfg g) bassFmin bassFmax fr
      refine ⟨blend (F32.clamp weight 0 1) a b, ?_, a, b, ea, eb, la, lb, rfl⟩
      have eb' : frameToHpcp M powi sel { g with peaks := Nat.min (Nat.max g.peaks 1) 12 } bassFmin bassFmax fr = .ok b := eb
      rw [ea, R.ok_bind, eb']; rfl)
  refine ⟨bs, by unfold bassBlend; rw [if_neg hne, hck, R.ok_bind, eb]; rfl, by rw [← hb.length_eq, ← hf.length_eq], ?_⟩
  intro i fr c hi hc
  obtain ⟨i1, i2⟩ := List.getElem?_eq_some_iff.1 hi
  obtain ⟨j1, j2⟩ := List.getElem?_eq_some_iff.1 hc
  have k1 : i < cs.length := by rw [← hf.length_eq]; exact i1
  obtain ⟨ga, gl⟩ := (List.forall₂_iff_get.1 hf).2 i i1 k1
  obtain ⟨full, bass, e1, e2, l1, l2, e3⟩ := (List.forall₂_iff_get.1 hb).2 i i1 j1
  simp only [List.get_eq_getElem] at ga gl e1 e2 e3
  rw [i2] at ga e1 e2
  rw [j2] at e3
  rw [ga] at e1
  injection e1 with e1
  refine ⟨full, bass, by rw [List.getElem?_eq_getElem k1, e1], e2, l1, l2, ?_⟩
  rw [e3, scaled_eq]
  unfold blend
  congr 1
  refine List.ext_getElem (by simp [l1, l2]) (fun k h1 h2 => ?_)
  have hk : k < 12 := by simpa using h2
  rw [List.getElem_zipWith, List.getElem_map, List.getElem_range, List.getD_eq_getElem?_getD, List.getD_eq_getElem?_getD,
    List.getElem?_eq_getElem (by omega), List.getElem?_eq_getElem (by omega), Option.getD_some, Option.getD_some]

theorem blend_mix_range {a b w : F32} (ha : 0 ≤ a ∧ a ≤ 1) (hb : 0 ≤ b ∧ b ≤ 1) (hw : 0 ≤ w ∧ w ≤ 1) :
    0 ≤ (1 - w) * a + w * b ∧ (1 - w) * a + w * b ≤ 2 := by
  obtain ⟨a0, a1⟩ := ha
  obtain ⟨b0, b1⟩ := hb
  obtain ⟨w0, w1⟩ := hw
  rw [zero_def] at a0 b0 w0
  rw [one_def] at a1 b1 w1
  obtain ⟨x, hx, rfl, x0, x1⟩ := between_cases a0 a1
  obtain ⟨y, hy, rfl, y0, y1⟩ := between_cases b0 b1
  obtain ⟨t, ht, rfl, t0, t1⟩ := between_cases w0 w1
  obtain ⟨g1, e1, l1, u1⟩ := rnd_between (x := 1 - t) grid_zero grid_one (by linarith) (by linarith)
  rw [one_def, sub_fin, e1, mul_fin, mul_fin]
  obtain ⟨g2, e2, l2, u2⟩ := rnd_between (x := rndQ (1 - t) * x) grid_zero grid_one (by positivity) (by nlinarith)
  obtain ⟨g3, e3, l3, u3⟩ := rnd_between (x := t * y) grid_zero grid_one (by positivity) (by nlinarith)
  obtain ⟨gt, et⟩ : ∃ h, (2 : F32) = fin 2 h := ⟨by decide +kernel, by decide +kernel⟩
  obtain ⟨g4, e4, l4, u4⟩ := rnd_between (x := rndQ (rndQ (1 - t) * x) + rndQ (t * y)) grid_zero gt (by linarith) (by linarith)
  rw [e2, e3, add_fin, e4]
  rw [et, zero_def, fin_le_fin, fin_le_fin]
  exact ⟨l4, u4⟩

theorem Settings.bass {g : Cfg} (h : Settings g) : Settings (bassCfg g) := ⟨h.tuning, h.decay, h.power, h.harmonics, h.sr⟩

/-- **C82, range (partial).** With a weight that is a number (any number: it is limited to `[0, 1]`), under the premises of
`C78_range_partial`, every entry of a blended profile is a number in `[0, 1]`, and the profile has unit length up to
`18 / 2^22` unless its computed norm is at most `1e-10`.  Missing: a NaN weight (`C82_violated`) and what is missing
there. -/
theorem C82_range_partial (M : Libm) (hM : Sane M) (powi : F32 → ℕ → F32) (hP : PowSane M powi)
    (sel : ℕ → List (ℕ × F32) → List (ℕ × F32)) (hsel : TopK sel) (g : Cfg) (hg : Settings g) (hfft : g.fft ≤ 2 ^ 64)
    (bassFmin bassFmax weight : F32) (hw : weight ≠ nan) (spec : List (List F32)) (hl : ∀ fr ∈ spec, fr.length ≤ 2 ^ 64)
    (hm : ∀ fr ∈ spec, ∀ m ∈ fr, m = nan ∨ m ≤ rnd (pow2 76)) (cs : List (List F32)) (es : List F32)
    (h : bassBlend M powi sel g bassFmin bassFmax weight spec = .ok (cs, es)) :
    ∀ c ∈ cs, c.length = 12 ∧ (∀ y ∈ c, 0 ≤ y ∧ y ≤ 1) ∧
      (|exactSq c - 1| ≤ 18 / 2 ^ 22 ∨ F32.sqrt (F32.sum (c.map (fun x => x * x))) ≤ 1e-10) := by
  have hclamp : 0 ≤ F32.clamp weight 0 1 ∧ F32.clamp weight 0 1 ≤ 1 := clamp01 hw
  unfold bassBlend at h
  by_cases hne : spec = []
  · rw [if_pos hne] at h
    injection h with h
    obtain ⟨h1, h2⟩ := Prod.mk.inj h
    subst h1
    intro c hc
    simp at hc
  rw [if_neg hne] at h
  obtain ⟨u, hck, h⟩ := R.bind_eq_ok.1 h
  obtain ⟨bs, eb, h⟩ := R.bind_eq_ok.1 h
  injection h with h
  obtain ⟨h1, h2⟩ := Prod.mk.inj h
  subst h1 h2
  obtain ⟨bs', eb', hb⟩ := mapM_total (f := fun fr => do
      let full ← frameToHpcp M powi sel g FMIN FMAX fr
      let bass ← frameToHpcp M powi sel { g with peaks := Nat.min (Nat.max g.peaks 1) 12 } bassFmin bassFmax fr
      pure (blend (F32.clamp weight 0 1) full bass))
    (P := fun fr c => c.length = 12 ∧ (∀ y ∈ c, 0 ≤ y ∧ y ≤ 1) ∧
      (|exactSq c - 1| ≤ 18 / 2 ^ 22 ∨ F32.sqrt (F32.sum (c.map (fun x => x * x))) ≤ 1e-10)) (spec := spec)
    (fun fr hfr => by
      obtain ⟨a, ea, la, ra, _⟩ := C78_range_partial M hM powi hP sel hsel g hg hfft FMIN FMAX fr (hl fr hfr) (hm fr hfr)
      obtain ⟨b, eb, lb, rb, _⟩ := C78_range_partial M hM powi hP sel hsel (bassCfg g) hg.bass hfft bassFmin bassFmax fr
        (hl fr hfr) (hm fr hfr)
      have eb' : frameToHpcp M powi sel { g with peaks := Nat.min (Nat.max g.peaks 1) 12 } bassFmin bassFmax fr = .ok b := eb
      have hacc : Acc (List.zipWith (fun a b => (1 - F32.clamp weight 0 1) * a + F32.clamp weight 0 1 * b) a b) := by
        refine ⟨by rw [List.length_zipWith, la, lb]; rfl, fun x hx => ?_⟩
        obtain ⟨k, hk, rfl⟩ := List.mem_iff_getElem.1 hx
        rw [List.length_zipWith, la, lb] at hk
        have hk : k < 12 := hk
        rw [List.getElem_zipWith]
        have := blend_mix_range (ra _ (List.getElem_mem (show k < a.length by omega))) (rb _ (List.getElem_mem (show k < b.length by omega))) hclamp
        exact ⟨this.1, F32.le_trans this.2 (by decide +kernel)⟩
      refine ⟨blend (F32.clamp weight 0 1) a b, by rw [ea, R.ok_bind, eb']; rfl, ?_, ?_, unitOrKeep_unit hacc⟩
      · unfold blend
        rw [length_unitOrKeep]; exact hacc.1
      · exact unitOrKeep_range (acc_mags hacc))
  rw [eb] at eb'
  injection eb' with eb'
  subst eb'
  intro c hc
  obtain ⟨i, hi, rfl⟩ := List.mem_iff_getElem.1 hc
  exact (List.forall₂_iff_get.1 hb).2 i (by rw [hb.length_eq]; exact hi) hi

/-- **C82, end points.** A weight of at most 0 gives the plain profile and a weight of at least 1 the bass profile, scaled to
unit length (once more). -/
theorem C82_ends (M : Libm) (hM : Sane M) (powi : F32 → ℕ → F32) (hP : PowSane M powi)
    (sel : ℕ → List (ℕ × F32) → List (ℕ × F32)) (hsel : TopK sel) (g : Cfg) (hg : Settings g) (hfft : g.fft ≤ 2 ^ 64)
    (bassFmin bassFmax weight : F32) (fr : List F32) (hne : fr ≠ []) (hl : fr.length ≤ 2 ^ 64)
    (hm : ∀ m ∈ fr, m = nan ∨ m ≤ rnd (pow2 76)) :
    ∃ full bass e, hpcpOfSpec M powi sel g [fr] = .ok ([full], [e]) ∧
      frameToHpcp M powi sel (bassCfg g) bassFmin bassFmax fr = .ok bass ∧
      (weight ≤ 0 → bassBlend M powi sel g bassFmin bassFmax weight [fr] = .ok ([scaled full], [e])) ∧
      (1 ≤ weight → bassBlend M powi sel g bassFmin bassFmax weight [fr] = .ok ([scaled bass], [e])) := by
  obtain ⟨a, ea, la, ra, _⟩ := C78_range_partial M hM powi hP sel hsel g hg hfft FMIN FMAX fr hl hm
  obtain ⟨b, eb, lb, rb, _⟩ := C78_range_partial M hM powi hP sel hsel (bassCfg g) hg.bass hfft bassFmin bassFmax fr hl hm
  have hck := checkSpec_ok (spec := [fr]) (by simp) (by simpa using hne) (by simp)
  have key : hpcpOfSpec M powi sel g [fr] = .ok ([a], [energy fr]) := by
    unfold hpcpOfSpec
    rw [if_neg (by simp), hck, R.ok_bind, List.mapM_cons, ea]; rfl
  refine ⟨a, b, energy fr, key, eb, fun hw => ?_, fun hw => ?_⟩
  all_goals
    obtain ⟨cs, e1, e2, e3⟩ := C82_composition M powi sel g bassFmin bassFmax weight [fr] [a] [energy fr] key
    rcases cs with _ | ⟨c, _ | ⟨d, cs⟩⟩ <;> simp at e2
    obtain ⟨full, bass, f1, f2, f3, f4, f5⟩ := e3 0 fr c rfl rfl
    have f1 : a = full := by simpa using f1
    rw [eb] at f2
    injection f2 with f2
    subst f1 f2
    rw [e1, f5]
    congr 4
    refine List.ext_getElem (by simp [la, lb]) (fun k h1 h2 => ?_)
    have hk : k < 12 := by simpa using h1
    rw [List.getElem_map, List.getElem_range, List.getD_eq_getElem?_getD, List.getD_eq_getElem?_getD,
      List.getElem?_eq_getElem (show k < a.length by omega), List.getElem?_eq_getElem (show k < b.length by omega),
      Option.getD_some, Option.getD_some]
    obtain ⟨x0, x1⟩ := ra _ (List.getElem_mem (show k < a.length by omega))
    obtain ⟨y0, y1⟩ := rb _ (List.getElem_mem (show k < b.length by omega))
    rw [zero_def] at x0 y0
    rw [one_def] at x1 y1
    obtain ⟨x, hx, ex, _, _⟩ := between_cases x0 x1
    obtain ⟨y, hy, ey, _, _⟩ := between_cases y0 y1
    rw [ex, ey]
  · have : F32.clamp weight 0 1 = 0 := by
      unfold F32.clamp
      dsimp only
      by_cases h : weight < 0
      · rw [if_pos h]; decide +kernel
      · rw [if_neg h]
        have := F32.le_antisymm hw (F32.le_of_not_lt (by decide +kernel) (ne_nan_left hw) h)
        rw [this]; decide +kernel
    rw [this, show (1 - 0 : F32) = fin 1 grid_one by decide +kernel, zero_def, mul_fin, mul_fin, one_mul, zero_mul, rnd_val hx,
      rnd_zero, zero_def, add_fin, add_zero, rnd_val hx]
  · have : F32.clamp weight 0 1 = 1 := by
      unfold F32.clamp
      dsimp only
      have h0 : ¬ weight < 0 := F32.not_lt_of_le (F32.le_trans (by decide +kernel) hw)
      rw [if_neg h0]
      by_cases h : 1 < weight
      · rw [if_pos h]
      · rw [if_neg h]
        exact F32.le_antisymm (F32.le_of_not_lt (ne_nan_right hw) (by decide +kernel) h) hw
    rw [this, show (1 - 1 : F32) = fin 0 grid_zero by decide +kernel, one_def, mul_fin, mul_fin, one_mul, zero_mul, rnd_val hy,
      rnd_zero, zero_def, add_fin, zero_add, rnd_val hy]

/-- **C82, silence.** Frames without a positive magnitude have the zero profile, whatever the weight (a number). -/
theorem C82_silent (M : Libm) (powi : F32 → ℕ → F32) (hP : PowSane M powi) (sel : ℕ → List (ℕ × F32) → List (ℕ × F32)) (g : Cfg)
    (hg : g.magPower ≠ nan) (bassFmin bassFmax weight : F32) (hw : weight ≠ nan) (spec : List (List F32))
    (hm : ∀ fr ∈ spec, ∀ m ∈ fr, ¬ 0 < m) (cs : List (List F32)) (es : List F32)
    (h : bassBlend M powi sel g bassFmin bassFmax weight spec = .ok (cs, es)) :
    ∀ c ∈ cs, c = List.replicate 12 0 := by
  have hclamp : 0 ≤ F32.clamp weight 0 1 ∧ F32.clamp weight 0 1 ≤ 1 := clamp01 hw
  have hbl : blend (F32.clamp weight 0 1) (List.replicate 12 0) (List.replicate 12 0) = List.replicate 12 0 := by
    generalize F32.clamp weight 0 1 = w at hclamp
    obtain ⟨w0, w1⟩ := hclamp
    rw [zero_def] at w0
    rw [one_def] at w1
    obtain ⟨t, ht, rfl, t0, t1⟩ := between_cases w0 w1
    obtain ⟨g1, e1, l1, u1⟩ := rnd_between (x := 1 - t) grid_zero grid_one (by linarith) (by linarith)
    have hz : (1 - fin t ht) * 0 + fin t ht * 0 = 0 := by
      rw [one_def, sub_fin, e1, zero_def, mul_fin, mul_fin, MulZeroClass.mul_zero, MulZeroClass.mul_zero, rnd_zero]
      decide +kernel
    unfold blend
    rw [show List.zipWith (fun a b => (1 - fin t ht) * a + fin t ht * b) (List.replicate 12 0) (List.replicate 12 0) =
      List.replicate 12 0 by rw [List.zipWith_replicate']; rw [hz]]
    decide +kernel
  unfold bassBlend at h
  by_cases hne : spec = []
  · rw [if_pos hne] at h
    injection h with h
    obtain ⟨h1, h2⟩ := Prod.mk.inj h
    subst h1
    intro c hc
    simp at hc
  rw [if_neg hne] at h
  obtain ⟨u, hck, h⟩ := R.bind_eq_ok.1 h
  obtain ⟨bs, eb, h⟩ := R.bind_eq_ok.1 h
  injection h with h
  obtain ⟨h1, h2⟩ := Prod.mk.inj h
  subst h1 h2
  obtain ⟨bs', eb', hb⟩ := mapM_total (f := fun fr => do
      let full ← frameToHpcp M powi sel g FMIN FMAX fr
      let bass ← frameToHpcp M powi sel { g with peaks := Nat.min (Nat.max g.peaks 1) 12 } bassFmin bassFmax fr
      pure (blend (F32.clamp weight 0 1) full bass))
    (P := fun fr c => c = List.replicate 12 0) (spec := spec)
    (fun fr hfr => by
      refine ⟨_, ?_, rfl⟩
      rw [(C78_silent M powi sel g FMIN FMAX fr).1 hP hg (hm fr hfr), R.ok_bind,
        (C78_silent M powi sel { g with peaks := Nat.min (Nat.max g.peaks 1) 12 } bassFmin bassFmax fr).1 hP hg (hm fr hfr), R.ok_bind,
        hbl]
      rfl)
  rw [eb] at eb'
  injection eb' with eb'
  subst eb'
  intro c hc
  obtain ⟨i, hi, rfl⟩ := List.mem_iff_getElem.1 hc
  exact (List.forall₂_iff_get.1 hb).2 i (by rw [hb.length_eq]; exact hi) hi

/-! ### Where the claim fails -/

/-- **C82, violated: a NaN weight passes the limits and makes every entry of every profile NaN**, for every spectrogram that
the extractor accepts. -/
theorem C82_violated (M : Libm) (powi : F32 → ℕ → F32) (sel : ℕ → List (ℕ × F32) → List (ℕ × F32)) (g : Cfg)
    (bassFmin bassFmax : F32) (spec : List (List F32)) (cs : List (List F32)) (es : List F32)
    (h : bassBlend M powi sel g bassFmin bassFmax nan spec = .ok (cs, es)) : ∀ c ∈ cs, c = List.replicate 12 nan := by
  unfold bassBlend at h
  by_cases hne : spec = []
  · rw [if_pos hne] at h
    injection h with h
    obtain ⟨h1, h2⟩ := Prod.mk.inj h
    subst h1
    intro c hc
    simp at hc
  rw [if_neg hne] at h
  obtain ⟨u, hck, h⟩ := R.bind_eq_ok.1 h
  obtain ⟨bs, eb, h⟩ := R.bind_eq_ok.1 h
  injection h with h
  obtain ⟨h1, h2⟩ := Prod.mk.inj h
  subst h1 h2
  obtain ⟨bs', eb', hb⟩ := mapM_total (f := fun fr => do
      let full ← frameToHpcp M powi sel g FMIN FMAX fr
      let bass ← frameToHpcp M powi sel { g with peaks := Nat.min (Nat.max g.peaks 1) 12 } bassFmin bassFmax fr
      pure (blend (F32.clamp nan 0 1) full bass))
    (P := fun fr c => c = List.replicate 12 nan) (spec := spec)
    (fun fr hfr => by
      refine ⟨_, ?_, rfl⟩
      obtain ⟨a, ea, la⟩ := hpcp_len M powi sel g FMIN FMAX fr
      obtain ⟨b, eb, lb⟩ := hpcp_len M powi sel { g with peaks := Nat.min (Nat.max g.peaks 1) 12 } bassFmin bassFmax fr
      rw [ea, R.ok_bind, eb, R.ok_bind]
      have : blend (F32.clamp nan 0 1) a b = List.replicate 12 nan := by
        unfold blend
        rw [show F32.clamp nan 0 1 = nan by decide +kernel, show List.zipWith (fun a b => (1 - nan) * a + nan * b) a b = List.replicate 12 nan by
          refine List.ext_getElem (by simp [la, lb]) (fun k h1 h2 => ?_)
          rw [List.getElem_zipWith, List.getElem_replicate]
          exact (show ∀ x y : F32, (1 - nan) * x + nan * y = nan from fun x y => by rw [show (1 - nan : F32) = nan by decide +kernel, nan_mul, nan_add]) _ _]
        decide +kernel
      rw [this]
      rfl)
  rw [eb] at eb'
  injection eb' with eb'
  subst eb'
  intro c hc
  obtain ⟨i, hi, rfl⟩ := List.mem_iff_getElem.1 hc
  exact (List.forall₂_iff_get.1 hb).2 i (by rw [hb.length_eq]; exact hi) hi

/-! ### Examples -/

/-- the settings of the examples, with bins 110 Hz apart: all premises hold -/
example : Settings { demoCfg with sr := 3520, fft := 32 } ∧ Sane toneLibm ∧ PowSane toneLibm halfPow ∧ TopK topSel ∧
    (∀ m ∈ demoFrame, m = nan ∨ m ≤ rnd (pow2 76)) ∧ demoFrame ≠ [] :=
  ⟨⟨by decide +kernel, by decide +kernel, by decide +kernel, by decide +kernel, by decide +kernel⟩, sane_tone, powSane_demo,
    topSel_topK, by decide +kernel, by decide +kernel⟩

/-- a blend of one half differs from the plain profile; silence stays silent -/
example : (match bassBlend toneLibm halfPow topSel { demoCfg with sr := 3520, fft := 32 } 100 300 0.5 [demoFrame] with
      | .ok (cs, _) => decide (0 < (cs.getD 0 []).getD 9 0) | _ => false) = true ∧
    bassBlend toneLibm halfPow topSel { demoCfg with sr := 3520, fft := 32 } 100 300 0.5 [[0, 0, -1, nan]] =
      .ok ([List.replicate 12 0], [energy [0, 0, -1, nan]]) := by
  decide +kernel

end Verif.Props
