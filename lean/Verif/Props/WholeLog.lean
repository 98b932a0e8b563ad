/-
The log-frequency branch of the key stage on full-scale audio (src/lib.rs lines 1064-1092 and 1132-1141): the conversion
succeeds, its chroma vectors are in [0, 1] and its energies are bounded.
-/
import Verif.Props.WholeSmooth
import Verif.Props.LogSpec
import Verif.Props.BeatChroma
import Verif.Model.Analyze

namespace Verif.Props
open Verif Verif.Analyze F32

/-- rows of twelve values in `[0,1]` -/
def UnitRows (cs : List (List F32)) : Prop := ∀ r ∈ cs, r.length = 12 ∧ ∀ x ∈ r, 0 ≤ x ∧ x ≤ 1

/-- energies up to `2^78` -/
def Energies (es : List F32) : Prop := ∀ e ∈ es, 0 ≤ e ∧ e ≤ rnd (pow2 78)

/-- a sum of at most `2^24` numbers in `[0, 2^B]` -/
theorem sum_count {B : ℕ} (hB : B ≤ 100) {l : List F32} (h : ∀ x ∈ l, 0 ≤ x ∧ x ≤ rnd (pow2 B)) (hl : l.length ≤ 2 ^ 24) :
    0 ≤ F32.sum l ∧ F32.sum l ≤ rnd ((l.length : ℚ) * pow2 B) := by
  have hgrid : ∀ n : ℕ, n ≤ 2 ^ 24 → ∃ g, rnd ((n : ℚ) * pow2 B) = fin ((n : ℚ) * pow2 B) g := by
    intro n hn
    have g1 : OnGrid ((n : ℚ) * pow2 B) := by
      have := onGrid_of_scaled (m := n) (e := B) (by rw [Nat.abs_cast]; exact_mod_cast hn) (by omega)
      simpa using this
    have g2 : |(n : ℚ) * pow2 B| < pow2 128 := by
      rw [abs_of_nonneg (mul_nonneg (by positivity) (pow2_pos _).le)]
      have hn' : (n : ℚ) ≤ pow2 24 := by rw [pow2_24]; exact_mod_cast hn
      calc (n : ℚ) * pow2 B ≤ pow2 24 * pow2 B := mul_le_mul_of_nonneg_right hn' (pow2_pos _).le
        _ = pow2 (24 + B) := (pow2_add _ _).symm
        _ < pow2 128 := pow2_lt (by omega)
    exact ⟨⟨g1, g2⟩, rnd_val ⟨g1, g2⟩⟩
  have key : ∀ (l : List F32) (k : ℕ) (a : F32), (∀ x ∈ l, 0 ≤ x ∧ x ≤ rnd (pow2 B)) → k + l.length ≤ 2 ^ 24 →
      0 ≤ a → a ≤ rnd ((k : ℚ) * pow2 B) → 0 ≤ l.foldl (· + ·) a ∧ l.foldl (· + ·) a ≤ rnd (((k + l.length : ℕ) : ℚ) * pow2 B) := by
    intro l
    induction l with
    | nil => intro k a _ _ h0 h1; exact ⟨h0, h1⟩
    | cons x l ih =>
      intro k a h hk a0 a1
      rw [List.foldl_cons]
      have e : k + (x :: l).length = (k + 1) + l.length := by simp; omega
      rw [e]
      obtain ⟨x0, x1⟩ := h x (by simp)
      have hs := F32.add_nonneg a0 x0
      simp only [List.length_cons] at hk
      refine ih (k + 1) _ (fun y hy => h y (by simp [hy])) (by omega) hs ?_
      obtain ⟨g1, e1⟩ := hgrid k (by omega)
      obtain ⟨g2, e2⟩ := hgrid 1 (by norm_num)
      have e2' : rnd (pow2 B) = fin (((1 : ℕ) : ℚ) * pow2 B) g2 := by rw [← e2]; norm_num
      have hadd : rnd ((k : ℚ) * pow2 B) + rnd (pow2 B) = rnd (((k + 1 : ℕ) : ℚ) * pow2 B) := by
        rw [e1, e2', add_fin]; congr 1; push_cast; ring
      rw [← hadd]
      refine F32.add_le_add a1 x1 (ne_nan_right hs) ?_
      rw [hadd]; exact rnd_ne_nan _
  have := key l 0 0 h (by omega) (by decide +kernel) (by
    rw [Nat.cast_zero, zero_mul]; exact F32.le_refl (rnd_ne_nan _) |> fun h => F32.le_trans (by decide +kernel) h)
  rw [Nat.zero_add] at this
  exact this

theorem logShare_le {ξ : ℚ} {hξ} (h0 : 0 ≤ ξ) (h1 : ξ ≤ 2 ^ 20) {m : F32} (hm : 0 ≤ m) (hf : m.isFinite = true) (k : ℕ) :
    0 ≤ logShare (fin ξ hξ) m k ∧ logShare (fin ξ hξ) m k ≤ m := by
  obtain ⟨p1, _, r, hr, er, r0, r1, _⟩ := pos_parts (hξ := hξ) h0 h1
  unfold logShare
  rw [p1, er]
  have u1 : (0 : F32) ≤ fin r hr ∧ fin r hr ≤ 1 := by
    rw [zero_def, one_def, fin_le_fin, fin_le_fin]; exact ⟨r0, r1⟩
  have u2 : (0 : F32) ≤ 1 - fin r hr ∧ 1 - fin r hr ≤ 1 := by
    rw [one_def, sub_fin]
    obtain ⟨hq, eq, l, u⟩ := rnd_between (x := 1 - r) grid_zero grid_one (by linarith) (by linarith)
    rw [eq, zero_def, fin_le_fin, fin_le_fin]; exact ⟨l, u⟩
  split_ifs
  · exact mul_le_of_le_one hm u2.1 u2.2 hf
  · exact mul_le_of_le_one hm u1.1 u1.2 hf

theorem mul_self_range {x B : F32} (x0 : 0 ≤ x) (x1 : x ≤ B) (hB : B.isFinite = true) : 0 ≤ x * x ∧ x * x ≤ B * B := by
  have hf : x.isFinite = true := isFinite_of_between (by decide +kernel) hB x0 x1
  have b0 := F32.le_trans x0 x1
  have h1 : x * x ≤ B * x := F32.mul_le_mul_of_nonneg_right x1 x0 (mul_fin_ne_nan hf hf) (mul_fin_ne_nan hB hf)
  have h2 : B * x ≤ B * B := F32.mul_le_mul_of_nonneg_left x1 b0 (mul_fin_ne_nan hB hf) (mul_fin_ne_nan hB hB)
  exact ⟨F32.mul_nonneg x0 x0 (mul_fin_ne_nan hf hf), F32.le_trans h1 h2⟩

/-- log-frequency chroma: with magnitudes up to `2^18` and at most `2^13 + 1` of them per frame -/
theorem logChroma_ok {L : Lib} (hM : Chroma.Sane L.M) (hL : LogMono L.M) {c : Config} (hl : c.enableLogFreq = true) {sr : ℕ} (hsr : 1000 ≤ sr)
    (hsr' : sr ≤ 2 ^ 32) {ks : List (List F32)} (hne : ks ≠ []) {m : ℕ} (hf : 0 < keyFft c) (hf' : keyFft c ≤ 2 ^ 64)
    (hm13 : m ≤ 2 ^ 13 + 1) (hm : MagsTo 18 ks m) :
    ∃ s off cs, logFreq L c sr ks = .ok (some (s, off)) ∧ Chroma.chromaOfLogSpec s off = .ok cs ∧ cs.length = ks.length ∧
      s.length = ks.length ∧ UnitRows cs ∧ Energies (s.map Chroma.energy) := by
  have h100 : F32.max 100 20 = (100 : F32) := by decide +kernel
  have h20 : (20 : F32) ≤ F32.max 100 20 := by decide +kernel
  have hmx : F32.max 100 20 ≤ rnd (pow2 63) := by decide +kernel
  have hny : (499 : F32) ≤ F32.ofNat sr / 2 - 1 := by
    have h1 : F32.ofNat 1000 / 2 ≤ F32.ofNat sr / 2 := by
      refine F32.div_le_div_right (ofNat_mono hsr) (by decide +kernel) (by decide +kernel) ?_
      rcases nonneg_cases (ofNat_nonneg sr) with e | ⟨v, hv, e, _⟩ <;> rw [e]
      · decide +kernel
      · obtain ⟨h2, e2⟩ : ∃ h, (2 : F32) = fin 2 h := ⟨by decide +kernel, by decide +kernel⟩
        rw [e2, div_fin (by norm_num)]; exact rnd_ne_nan _
    have h2 : F32.ofNat 1000 / 2 - 1 ≤ F32.ofNat sr / 2 - 1 := by
      rw [sub_eq, sub_eq (F32.ofNat sr / 2)]
      refine F32.add_le_add h1 (by decide +kernel) ?_ ?_
      · decide +kernel
      · rw [← sub_eq]
        obtain ⟨g, e⟩ : ∃ h, (1 : F32) = fin 1 h := ⟨by decide +kernel, by decide +kernel⟩
        rw [e]
        intro hn
        rcases hh : F32.ofNat sr / 2 with _ | b | ⟨q, hq⟩
        · rw [hh] at h1; exact absurd rfl (ne_nan_right h1)
        · rw [hh] at hn; cases b <;> exact absurd hn (by rw [← e]; decide +kernel)
        · rw [hh, sub_fin] at hn; exact rnd_ne_nan _ hn
    exact F32.le_trans (by decide +kernel) h2
  obtain ⟨a, ha, ea, hab⟩ := semi_small hM h20 hmx
  have hle : F32.max 100 20 ≤ F32.min 5000 (F32.ofNat sr / 2 - 1) := by
    rcases min_eq_left_or_right 5000 (F32.ofNat sr / 2 - 1) with e | e <;> rw [e]
    · decide +kernel
    · exact F32.le_trans (by decide +kernel) hny
  have hgx : F32.min 5000 (F32.ofNat sr / 2 - 1) ≤ rnd (pow2 63) :=
    F32.le_trans (F32.min_le_left (by decide +kernel)) (by decide +kernel)
  obtain ⟨b, hb, eb, hbb⟩ := semi_small hM (F32.le_trans h20 hle) hgx
  have hmono : a ≤ b := semi_mono hM hL h20 hle hgx ea eb
  have ea' : 12 * L.M.log2 (F32.max 100 20 / 440) + 57 = fin a ha := ea
  have eb' : 12 * L.M.log2 (F32.min 5000 (F32.ofNat sr / 2 - 1) / 440) + 57 = fin b hb := eb
  obtain ⟨out, eo, lo, hn⟩ := (((C81_shape L.M ks sr (keyFft c) 100 5000).2.2 hne (fun x hx y hy => by rw [(hm x hx).1, (hm y hy).1])
    (by omega) hf a b ha hb ea' eb' hab hbb).1 ((Int.floor_le_floor hmono).trans (Int.floor_le_ceil b)))
  have hcnt : ∀ fr ∈ out, fr.length ≤ 8194 := by
    intro fr hfr
    have h1 := hn fr hfr
    have h2 : (-4096 : ℤ) ≤ ⌊a⌋ := by rw [Int.le_floor]; push_cast; exact (abs_le.1 hab).1
    have h3 : ⌈b⌉ ≤ (4096 : ℤ) := by rw [Int.ceil_le]; push_cast; exact (abs_le.1 hbb).2
    omega
  have hcells : ∀ fr ∈ out, ∀ y ∈ fr, 0 ≤ y ∧ y ≤ rnd (8193 * pow2 18) := by
    obtain ⟨smin, n, es, ec⟩ := C81_composition L.M ks hne sr (keyFft c) 100 5000 out eo
    rw [ea', (floor_exact (hab.trans (by norm_num))).1] at es
    rw [es] at ec
    intro fr hfr y hy
    rw [ec] at hfr
    obtain ⟨x, hx, rfl⟩ := List.mem_map.1 hfr
    obtain ⟨k, _, rfl⟩ := List.mem_map.1 hy
    have hcl : (logCell L.M sr (keyFft c) (F32.max 100 20) (F32.min 5000 (F32.ofNat sr / 2 - 1)) ⌊a⌋ n k 0 x).length ≤ 8193 := by
      unfold logCell
      rw [List.length_map]
      refine (List.length_filter_le _ _).trans ?_
      rw [List.length_zipIdx, (hm x hx).1]
      exact hm13
    obtain ⟨s0, s1⟩ := sum_count (B := 18) (by norm_num)
      (l := logCell L.M sr (keyFft c) (F32.max 100 20) (F32.min 5000 (F32.ofNat sr / 2 - 1)) ⌊a⌋ n k 0 x) (by
      intro y hy
      unfold logCell at hy
      obtain ⟨p, hp, rfl⟩ := List.mem_map.1 hy
      obtain ⟨hp1, hp2⟩ := List.mem_filter.1 hp
      simp only [decide_eq_true_eq] at hp2
      obtain ⟨k1, k2⟩ := List.mem_zipIdx' hp1
      have hpx : p.1 ∈ x := k2 ▸ List.getElem_mem k1
      obtain ⟨ξ, hξ, e, x0, x1⟩ := logPos_val hM hL (sr := sr) (by omega) hf hf' (i := p.2)
        (by have := (hm x hx).1; omega) h20 ea' hp2.2.1
      rw [e]
      obtain ⟨p0, p1⟩ := (hm x hx).2 p.1 hpx
      have hsh := logShare_le (hξ := hξ) x0 x1 p0 (isFinite_of_between (by decide +kernel) (by decide +kernel) p0 p1) k
      exact ⟨hsh.1, F32.le_trans hsh.2 p1⟩) (by omega)
    refine ⟨s0, F32.le_trans s1 (rnd_mono ?_)⟩
    refine mul_le_mul_of_nonneg_right ?_ (pow2_pos _).le
    exact_mod_cast hcl
  have hoff : (F32.floor (12 * L.M.log2 (100 / 440) + 57)).toI32 = ⌊a⌋ := by
    rw [h100] at ea'
    rw [ea', (floor_exact (hab.trans (by norm_num))).1]
  have hlo : (-4096 : ℤ) ≤ ⌊a⌋ := by rw [Int.le_floor]; push_cast; exact (abs_le.1 hab).1
  have hhi : ⌊a⌋ ≤ (4096 : ℤ) := by
    have h1 := Int.floor_le a
    have h2 := (abs_le.1 hab).2
    exact_mod_cast h1.trans h2
  obtain ⟨cs, ec, lc, hu⟩ := C70_range_partial ⌊a⌋ (by omega) out (fun fr hfr => by have := hcnt fr hfr; constructor <;> omega)
    (fun fr hfr x hx => F32.le_trans (hcells fr hfr x hx).2 (by decide +kernel))
  refine ⟨out, ⌊a⌋, cs, ?_, ec, lc.trans lo, lo, hu, ?_⟩
  · unfold logFreq
    rw [if_pos (by simp [hl, hne]), eo, hoff]
    rfl
  · intro e he
    obtain ⟨fr, hfr, rfl⟩ := List.mem_map.1 he
    have hsum := sum_count (B := 63) (by norm_num) (l := fr.map (fun x => x * x)) (by
      intro y hy
      obtain ⟨x, hx, rfl⟩ := List.mem_map.1 hy
      obtain ⟨x0, x1⟩ := hcells fr hfr x hx
      have := mul_self_range x0 x1 (by decide +kernel)
      exact ⟨this.1, F32.le_trans this.2 (by decide +kernel)⟩) (by
      rw [List.length_map]; have := hcnt fr hfr; omega)
    refine ⟨hsum.1, F32.le_trans hsum.2 (F32.le_trans (rnd_mono (?_ : _ ≤ 8194 * pow2 63)) (by decide +kernel))⟩
    refine mul_le_mul_of_nonneg_right ?_ (pow2_pos _).le
    rw [List.length_map]
    exact_mod_cast hcnt fr hfr

end Verif.Props
