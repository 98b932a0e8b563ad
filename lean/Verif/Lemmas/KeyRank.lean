/-
Helper lemmas for key detection: ranges of the scores and the shape of the refined ranking.
-/
import Verif.Lemmas.KeyDet

namespace Verif.KeyDet
open Verif Verif.Keys F32

/-! ### ranges -/

/-- a sum of at most 2^24 values, each at most 1, is at most their number -/
theorem sum_le_count : ∀ (l : List F32) (k : ℕ) (x : F32), (∀ y ∈ l, 0 ≤ y ∧ y ≤ (1 : F32)) → 0 ≤ x → x ≤ F32.ofNat k →
    k + l.length ≤ 2 ^ 24 → l.foldl (· + ·) x ≤ F32.ofNat (k + l.length) := by
  intro l
  induction l with
  | nil => intro k x _ _ h _; exact h
  | cons y l ih =>
    intro k x hy hx0 hx hk
    rw [List.length_cons] at hk ⊢
    rw [List.foldl_cons, show k + (l.length + 1) = (k + 1) + l.length by ring]
    have hy1 := hy y (by simp)
    refine ih (k + 1) _ (fun z hz => hy z (by simp [hz])) (F32.add_nonneg hx0 hy1.1) ?_ (by omega)
    have hsum : F32.ofNat k + 1 = F32.ofNat (k + 1) := by
      rw [ofNat_exact (by omega), one_def, add_fin, ofNat_exact (by omega), ← rnd_val (grid_nat (n := k + 1) (by omega))]
      push_cast; rfl
    rw [← hsum]
    exact F32.add_le_add hx hy1.2 (ne_nan_right (F32.add_nonneg hx0 hy1.1)) (by rw [hsum]; exact ofNat_ne_nan _)

theorem dot_bound {a b : List F32} (ha : ∀ x ∈ a, 0 ≤ x ∧ x ≤ 1) (hb : ∀ x ∈ b, 0 ≤ x ∧ x ≤ 1) (hl : a.length ≤ 12) :
    0 ≤ dot a b ∧ dot a b ≤ 12 := by
  have hz : ∀ x ∈ List.zipWith (· * ·) a b, 0 ≤ x ∧ x ≤ (1 : F32) := by
    intro x hx
    obtain ⟨i, hi, rfl⟩ := List.getElem_of_mem hx
    rw [List.getElem_zipWith]
    have h1 := ha _ (List.getElem_mem (by rw [List.length_zipWith] at hi; omega : i < a.length))
    have h2 := hb _ (List.getElem_mem (by rw [List.length_zipWith] at hi; omega : i < b.length))
    exact unit_mul h1.1 h1.2 h2.1 h2.2
  refine ⟨sum_nonneg (fun x hx => (hz x hx).1), ?_⟩
  have hlen : (List.zipWith (· * ·) a b : List F32).length ≤ 12 := by rw [List.length_zipWith]; omega
  have := sum_le_count _ 0 0 hz (by decide +kernel) (by decide +kernel) (by omega)
  refine F32.le_trans this (F32.le_trans (ofNat_mono (by omega : _ ≤ 12)) (by decide +kernel))

/-- the bound of a raw score -/
abbrev BIG : F32 := rnd (pow2 90)

theorem step_bound {acc x : F32} (h0 : 0 ≤ acc) (h1 : acc ≤ BIG) (x0 : 0 ≤ x) (x1 : x ≤ rnd (pow2 65)) :
    0 ≤ acc + x ∧ acc + x ≤ BIG := by
  have hn := F32.add_nonneg h0 x0
  exact ⟨hn, F32.le_trans (F32.add_le_add h1 x1 (ne_nan_right hn) (by decide +kernel)) (by decide +kernel)⟩

theorem raw_bound {chroma : List (List F32)} {weights : Option (List F32)} {t : List F32}
    (hc : ∀ c ∈ chroma, c.length = 12 ∧ ∀ x ∈ c, 0 ≤ x ∧ x ≤ 1)
    (hw : ∀ w, weights = some w → ∀ x ∈ w, 0 ≤ x ∧ x ≤ rnd (pow2 60)) (ht : ∀ x ∈ t, 0 ≤ x ∧ x ≤ 1) :
    0 ≤ weightedSumDot chroma weights t ∧ weightedSumDot chroma weights t ≤ BIG := by
  unfold weightedSumDot
  rcases weights with _ | w
  · dsimp only
    have : ∀ (l : List (List F32)) (a : F32), (∀ c ∈ l, c.length = 12 ∧ ∀ x ∈ c, 0 ≤ x ∧ x ≤ 1) → 0 ≤ a → a ≤ BIG →
        0 ≤ l.foldl (fun acc c => acc + dot c t) a ∧ l.foldl (fun acc c => acc + dot c t) a ≤ BIG := by
      intro l
      induction l with
      | nil => intro a _ h0 h1; exact ⟨h0, h1⟩
      | cons c l ih =>
        intro a h h0 h1
        rw [List.foldl_cons]
        have hc := h c (by simp)
        have hd := dot_bound hc.2 ht hc.1.le
        have := step_bound h0 h1 hd.1 (F32.le_trans hd.2 (by decide +kernel))
        exact ih _ (fun c hc => h c (by simp [hc])) this.1 this.2
    exact this chroma 0 hc (by decide +kernel) (by decide +kernel)
  · dsimp only
    have hw := hw w rfl
    have : ∀ (l : List (List F32 × F32)) (a : F32),
        (∀ p ∈ l, (p.1.length = 12 ∧ ∀ x ∈ p.1, 0 ≤ x ∧ x ≤ 1) ∧ 0 ≤ p.2 ∧ p.2 ≤ rnd (pow2 60)) → 0 ≤ a → a ≤ BIG →
        0 ≤ l.foldl (fun acc p => if 0 < p.2 then acc + p.2 * dot p.1 t else acc) a ∧
        l.foldl (fun acc p => if 0 < p.2 then acc + p.2 * dot p.1 t else acc) a ≤ BIG := by
      intro l
      induction l with
      | nil => intro a _ h0 h1; exact ⟨h0, h1⟩
      | cons p l ih =>
        intro a h h0 h1
        rw [List.foldl_cons]
        have hp := h p (by simp)
        have hd := dot_bound hp.1.2 ht hp.1.1.le
        have hstep : 0 ≤ (if 0 < p.2 then a + p.2 * dot p.1 t else a) ∧ (if 0 < p.2 then a + p.2 * dot p.1 t else a) ≤ BIG := by
          split_ifs
          · have fw : p.2.isFinite = true := isFinite_of_between (by decide +kernel) (by decide +kernel) hp.2.1 hp.2.2
            have fd : (dot p.1 t).isFinite = true := isFinite_of_between (by decide +kernel) (by decide +kernel) hd.1 hd.2
            have hn := mul_fin_ne_nan fw fd
            have m0 := F32.mul_nonneg hp.2.1 hd.1 hn
            refine step_bound h0 h1 m0 ?_
            have f12 : (12 : F32).isFinite = true := by decide +kernel
            have fb : (rnd (pow2 60)).isFinite = true := by decide +kernel
            have a1 := F32.mul_le_mul_of_nonneg_left hd.2 hp.2.1 hn (mul_fin_ne_nan fw f12)
            have a2 := F32.mul_le_mul_of_nonneg_right hp.2.2 (by decide +kernel : (0 : F32) ≤ 12) (mul_fin_ne_nan fw f12)
              (mul_fin_ne_nan fb f12)
            exact F32.le_trans a1 (F32.le_trans a2 (by decide +kernel))
          · exact ⟨h0, h1⟩
        exact ih _ (fun c hc => h c (by simp [hc])) hstep.1 hstep.2
    refine this (chroma.zip w) 0 ?_ (by decide +kernel) (by decide +kernel)
    intro p hp
    have := List.of_mem_zip hp
    exact ⟨hc _ this.1, hw _ this.2⟩

/-! ### the refinement of one mode -/

/-- score of the best key of a mode after the bonus -/
def topScore (m : F32) : F32 := m + m * (0.20 * (1 - F32.ofInt 0 * 0.5))

theorem circlePos_lt {t : ℕ} (h : t < 12) : circlePos t < 12 := by revert h t; decide +kernel

theorem circleDist_self {t : ℕ} (h : t < 12) : circleDist (circlePos t) (circlePos t) = 0 := by revert h t; decide +kernel

theorem circleDist_ne {s t : ℕ} (hs : s < 12) (ht : t < 12) (h : s ≠ t) :
    circleDist (circlePos s) (circlePos t) = 1 ∨ circleDist (circlePos s) (circlePos t) = 2 ∨
      ¬ circleDist (circlePos s) (circlePos t) ≤ 2 := by
  interval_cases s <;> interval_cases t <;> first | exact absurd rfl h | decide +kernel

theorem big_fin : ∃ h, BIG = fin (pow2 90) h := ⟨by decide +kernel, by decide +kernel⟩

theorem topScore_gt {m : F32} (h : 1e-9 < m) (hb : m ≤ BIG) : m < topScore m ∧ (topScore m).isFinite = true := by
  obtain ⟨hB, eB⟩ := big_fin
  obtain ⟨h9, e9⟩ : ∃ h, (1e-9 : F32) = fin (1e-9 : F32).val h := ⟨by decide +kernel, by decide +kernel⟩
  obtain ⟨h2, e2⟩ : ∃ h, (0.20 * (1 - F32.ofInt 0 * 0.5) : F32) = fin (0.20 * (1 - F32.ofInt 0 * 0.5) : F32).val h :=
    ⟨by decide +kernel, by decide +kernel⟩
  have v9 : 1 / 10 ^ 9 * (9 / 10) ≤ (1e-9 : F32).val := by decide +kernel
  have v2 : 19 / 100 ≤ (0.20 * (1 - F32.ofInt 0 * 0.5) : F32).val ∧ (0.20 * (1 - F32.ofInt 0 * 0.5) : F32).val ≤ 21 / 100 := by
    decide +kernel
  unfold topScore
  have hle := F32.le_of_lt h
  rw [e9] at h hle; rw [eB] at hb
  obtain ⟨v, hv, rfl, v1, v2'⟩ := between_cases hle hb
  rw [e2]
  generalize (0.20 * (1 - F32.ofInt 0 * 0.5) : F32).val = c at *
  generalize (1e-9 : F32).val = n at *
  have hv0 : 0 < v := by linarith
  have q0 : 0 ≤ v * c := by nlinarith
  have hup := rndQ_up q0
  have hdn := rndQ_down q0
  have hP : (2:ℚ) ^ 10 ≤ pow2 90 := by rw [← pow2_nat 10]; exact pow2_le (by norm_num)
  have hvc : v * c ≤ v * (21 / 100) := by nlinarith
  have hvc' : v * (19 / 100) ≤ v * c := by nlinarith
  rw [mul_fin]
  generalize v * c = p at *
  obtain ⟨hz, ez, bz⟩ := rnd_finite_of_abs_le (q := p) (b := pow2 90) hB (by
    rw [abs_of_nonneg q0]; linarith)
  rw [ez, add_fin]
  unfold eps eta at hup hdn
  have lo : v + rndQ p ≥ v * (118 / 100) := by linarith
  have q1 : 0 ≤ v + rndQ p := by linarith
  have hup2 := rndQ_up q1
  have hdn2 := rndQ_down q1
  unfold eps eta at hup2 hdn2
  obtain ⟨hz2, ez2, bz2⟩ := rnd_finite_of_abs_le (q := v + rndQ p) (b := pow2 91) (by decide +kernel) (by
    have h127 : pow2 91 = pow2 90 * 2 := by rw [show (91 : ℤ) = 90 + 1 by norm_num, pow2_add]; norm_num [pow2]
    rw [abs_of_nonneg q1, h127]; linarith)
  rw [ez2]
  exact ⟨fin_lt_fin.2 (by linarith), rfl⟩

theorem near_lt {m s : F32} (h : 1e-9 < m) (hb : m ≤ BIG) (s0 : 0 ≤ s) (s1 : s ≤ m) :
    s + m * (0.20 * (1 - F32.ofInt 1 * 0.5)) < topScore m ∧ s + m * (0.20 * (1 - F32.ofInt 2 * 0.5)) < topScore m := by
  have hgt := topScore_gt h hb
  obtain ⟨hB, eB⟩ := big_fin
  obtain ⟨h9, e9⟩ : ∃ h, (1e-9 : F32) = fin (1e-9 : F32).val h := ⟨by decide +kernel, by decide +kernel⟩
  obtain ⟨h2, e2⟩ : ∃ h, (0.20 * (1 - F32.ofInt 0 * 0.5) : F32) = fin (0.20 * (1 - F32.ofInt 0 * 0.5) : F32).val h :=
    ⟨by decide +kernel, by decide +kernel⟩
  obtain ⟨h1, e1⟩ : ∃ h, (0.20 * (1 - F32.ofInt 1 * 0.5) : F32) = fin (0.20 * (1 - F32.ofInt 1 * 0.5) : F32).val h :=
    ⟨by decide +kernel, by decide +kernel⟩
  have e0 : (0.20 * (1 - F32.ofInt 2 * 0.5) : F32) = 0 := by decide +kernel
  have v9 : 1 / 10 ^ 9 * (9 / 10) ≤ (1e-9 : F32).val := by decide +kernel
  have v2 : 19 / 100 ≤ (0.20 * (1 - F32.ofInt 0 * 0.5) : F32).val ∧ (0.20 * (1 - F32.ofInt 0 * 0.5) : F32).val ≤ 21 / 100 := by
    decide +kernel
  have v1' : 9 / 100 ≤ (0.20 * (1 - F32.ofInt 1 * 0.5) : F32).val ∧ (0.20 * (1 - F32.ofInt 1 * 0.5) : F32).val ≤ 11 / 100 := by
    decide +kernel
  constructor
  · unfold topScore at *
    have hle := F32.le_of_lt h
    rw [e9] at h hle; rw [eB] at hb
    obtain ⟨v, hv, rfl, v1, v2'⟩ := between_cases hle hb
    rw [zero_def] at s0
    obtain ⟨u, hu, rfl, u1, u2⟩ := between_cases s0 s1
    rw [e1, e2]
    generalize (0.20 * (1 - F32.ofInt 0 * 0.5) : F32).val = c at *
    generalize (0.20 * (1 - F32.ofInt 1 * 0.5) : F32).val = d at *
    generalize (1e-9 : F32).val = n at *
    have hv0 : 0 < v := by linarith
    have q0 : 0 ≤ v * c := by nlinarith
    have r0 : 0 ≤ v * d := by nlinarith
    have hdn := rndQ_down q0
    have hupq := rndQ_up q0
    have hup := rndQ_up r0
    have hrn := rndQ_nonneg r0
    have hvc' : v * (19 / 100) ≤ v * c := by nlinarith
    have hvc2 : v * c ≤ v * (21 / 100) := by nlinarith
    have hvd' : v * d ≤ v * (11 / 100) := by nlinarith
    rw [mul_fin, mul_fin]
    generalize v * c = p at *
    generalize v * d = r at *
    obtain ⟨hz, ez, _⟩ := rnd_finite_of_abs_le (q := p) (b := pow2 90) hB (by rw [abs_of_nonneg q0]; linarith)
    obtain ⟨hy, ey, _⟩ := rnd_finite_of_abs_le (q := r) (b := pow2 90) hB (by rw [abs_of_nonneg r0]; linarith)
    rw [ez, ey, add_fin, add_fin]
    unfold eps eta at hup hdn hupq
    have hP : (2:ℚ) ^ 10 ≤ pow2 90 := by rw [← pow2_nat 10]; exact pow2_le (by norm_num)
    have q1 : 0 ≤ v + rndQ p := by linarith
    have r1 : 0 ≤ u + rndQ r := by linarith
    have hup2 := rndQ_up r1
    have hdn2 := rndQ_down q1
    unfold eps eta at hup2 hdn2
    have h127 : pow2 91 = pow2 90 * 2 := by rw [show (91 : ℤ) = 90 + 1 by norm_num, pow2_add]; norm_num [pow2]
    obtain ⟨hz2, ez2, _⟩ := rnd_finite_of_abs_le (q := v + rndQ p) (b := pow2 91) (by decide +kernel) (by
      rw [abs_of_nonneg q1, h127]; linarith)
    obtain ⟨hy2, ey2, _⟩ := rnd_finite_of_abs_le (q := u + rndQ r) (b := pow2 91) (by decide +kernel) (by
      rw [abs_of_nonneg r1, h127]; linarith)
    rw [ez2, ey2]
    exact fin_lt_fin.2 (by linarith)
  · rw [e0]
    have : m * 0 = 0 := by
      have hle := F32.le_of_lt h
      rw [e9] at hle; rw [eB] at hb
      obtain ⟨v, hv, rfl, v1, v2'⟩ := between_cases hle hb
      rw [zero_def, mul_fin, mul_zero, rnd_zero, zero_def]
    rw [this, add_zero']
    exact F32.lt_of_le_of_lt s1 hgt.1

theorem refine_top {t : Key} (ht : tonic t < 12) {m : F32} (h : 1e-9 < m) : refineOne (t, m) (t, m) = (t, topScore m) := by
  unfold refineOne
  have hp := circlePos_lt ht
  simp only [if_pos h, and_self, if_pos hp, circleDist_self ht]
  rw [if_pos (by norm_num)]; rfl

theorem refine_lt {t k : Key} (ht : tonic t < 12) (hk : tonic k < 12) (hne : tonic k ≠ tonic t) {m s : F32} (h : 1e-9 < m)
    (hb : m ≤ BIG) (s0 : 0 ≤ s) (s1 : s ≤ m) : (refineOne (t, m) (k, s)).2 < topScore m := by
  unfold refineOne
  simp only [if_pos h, if_pos (And.intro (circlePos_lt hk) (circlePos_lt ht))]
  have := near_lt h hb s0 s1
  rcases circleDist_ne hk ht hne with e | e | e
  · rw [e, if_pos (by norm_num)]; exact this.1
  · rw [e, if_pos (by norm_num)]; exact this.2
  · rw [if_neg e]; exact F32.lt_of_le_of_lt s1 (topScore_gt h hb).1

theorem refine_same {t k : Key} {m s : F32} (h : ¬ 1e-9 < m) : refineOne (t, m) (k, s) = (k, s) := by
  unfold refineOne
  simp only [if_neg h]

/-! ### the best entry of a mode -/

/-- a list with the 24 keys and scores between 0 and `BIG` -/
structure Scored (l : List (Key × F32)) : Prop where
  keys : l.map Prod.fst = allKeys
  lo : ∀ p ∈ l, 0 ≤ p.2
  hi : ∀ p ∈ l, p.2 ≤ BIG

theorem allKeys_tonic {k : Key} (h : k ∈ allKeys) : tonic k < 12 := by
  unfold allKeys at h
  simp only [List.mem_append, List.mem_map, List.mem_range] at h
  rcases h with ⟨i, hi, rfl⟩ | ⟨i, hi, rfl⟩ <;> exact hi

theorem mem_allKeys {k : Key} (h : tonic k < 12) : k ∈ allKeys := by
  unfold allKeys
  simp only [List.mem_append, List.mem_map, List.mem_range]
  rcases k with i | i
  · exact Or.inl ⟨i, h, rfl⟩
  · exact Or.inr ⟨i, h, rfl⟩

theorem Scored.tonic {l : List (Key × F32)} (h : Scored l) {p : Key × F32} (hp : p ∈ l) : tonic p.1 < 12 :=
  allKeys_tonic (by rw [← h.keys]; exact List.mem_map_of_mem hp)

theorem Scored.unique {l : List (Key × F32)} (h : Scored l) {p q : Key × F32} (hp : p ∈ l) (hq : q ∈ l)
    (e : p.1 = q.1) : p = q := by
  have hnd : (l.map Prod.fst).Nodup := by rw [h.keys]; exact allKeys_nodup
  exact List.inj_on_of_nodup_map hnd hp hq e

theorem Scored.filter_ne {l : List (Key × F32)} (h : Scored l) (maj : Bool) :
    l.filter (fun p => isMajor p.1 == maj) ≠ [] := by
  have : (if maj then Key.major 0 else Key.minor 0) ∈ l.map Prod.fst := by
    rw [h.keys]; cases maj <;> decide +kernel
  obtain ⟨p, hp, hk⟩ := List.mem_map.1 this
  intro he
  have : p ∈ l.filter (fun p => isMajor p.1 == maj) := by
    rw [List.mem_filter]; refine ⟨hp, ?_⟩
    rw [hk]; cases maj <;> rfl
  rw [he] at this; simp at this

theorem Scored.top {l : List (Key × F32)} (h : Scored l) (maj : Bool) :
    topOf maj l ∈ l ∧ isMajor (topOf maj l).1 = maj ∧ ∀ p ∈ l, isMajor p.1 = maj → p.2 ≤ (topOf maj l).2 := by
  have hm := maxByOr_mem Prod.snd (d := ((if maj then Key.major 0 else Key.minor 0), (0 : F32))) (h.filter_ne maj)
  have hx := maxByOr_max Prod.snd (d := ((if maj then Key.major 0 else Key.minor 0), (0 : F32)))
    (l := l.filter (fun p => isMajor p.1 == maj)) (fun p hp => ne_nan_right (h.lo p (List.mem_filter.1 hp).1))
  have := List.mem_filter.1 hm
  refine ⟨this.1, ?_, fun p hp hmaj => hx p ?_⟩
  · have h2 := this.2; simp only [beq_iff_eq] at h2; exact h2
  rw [List.mem_filter]; exact ⟨hp, by simpa using hmaj⟩

theorem Scored.modeMax_eq {l : List (Key × F32)} (h : Scored l) (maj : Bool) : modeMax maj l = (topOf maj l).2 := by
  obtain ⟨h1, h2, h3⟩ := h.top maj
  unfold modeMax
  obtain ⟨_, _, s3, s2⟩ := foldMax_spec (l := (l.filter (fun p => isMajor p.1 == maj)).map Prod.snd) (a := 0) (by decide +kernel)
  unfold foldMax at s2 s3
  apply F32.le_antisymm
  · rcases s2 with e | e
    · rw [e]; exact h.lo _ h1
    · obtain ⟨p, hp, e⟩ := List.mem_map.1 e
      rw [← e]
      have := List.mem_filter.1 hp
      exact h3 p this.1 (by simpa using this.2)
  · refine s3 _ (List.mem_map_of_mem ?_) (ne_nan_right (h.lo _ h1))
    rw [List.mem_filter]; exact ⟨h1, by simpa using h2⟩

theorem key_ext {a b : Key} (h1 : isMajor a = isMajor b) (h2 : Verif.KeyDet.tonic a = Verif.KeyDet.tonic b) : a = b := by
  rcases a with i | i <;> rcases b with j | j
  · exact congrArg _ h2
  · simp [isMajor] at h1
  · simp [isMajor] at h1
  · exact congrArg _ h2

theorem mem_refine {l : List (Key × F32)} {p : Key × F32} (hp : p ∈ refineScores l) :
    ∃ q ∈ l, p = refineOne (topOf (isMajor q.1) l) q := by
  unfold refineScores at hp
  obtain ⟨q, hq, rfl⟩ := List.mem_map.1 hp
  refine ⟨q, hq, ?_⟩
  cases isMajor q.1 <;> rfl

theorem refine_mem {l : List (Key × F32)} {q : Key × F32} (hq : q ∈ l) :
    refineOne (topOf (isMajor q.1) l) q ∈ refineScores l := by
  unfold refineScores
  refine List.mem_map.2 ⟨q, hq, ?_⟩
  cases isMajor q.1 <;> rfl

/-- after the bonus the best key of a mode is strictly ahead of every other key of the mode -/
theorem Scored.refined {l : List (Key × F32)} (h : Scored l) (maj : Bool) (hm : 1e-9 < (topOf maj l).2) :
    ((topOf maj l).1, topScore (topOf maj l).2) ∈ refineScores l ∧
    ∀ p ∈ refineScores l, isMajor p.1 = maj →
      (p.1 = (topOf maj l).1 ∧ p.2 = topScore (topOf maj l).2) ∨
      (p.1 ≠ (topOf maj l).1 ∧ p.2 < topScore (topOf maj l).2) := by
  obtain ⟨h1, h2, h3⟩ := h.top maj
  have htop := refine_top (h.tonic h1) hm
  constructor
  · have := refine_mem h1
    rw [h2] at this
    rw [← htop]; exact this
  · intro p hp hpm
    obtain ⟨q, hq, rfl⟩ := mem_refine hp
    rw [refineOne_fst] at hpm ⊢
    rw [hpm]
    by_cases he : q.1 = (topOf maj l).1
    · have := h.unique hq h1 he
      rw [this]
      exact Or.inl ⟨rfl, congrArg Prod.snd htop⟩
    · right
      refine ⟨he, ?_⟩
      have hne : Verif.KeyDet.tonic q.1 ≠ Verif.KeyDet.tonic (topOf maj l).1 :=
        fun hc => he (key_ext (by rw [hpm, h2]) hc)
      exact refine_lt (h.tonic h1) (h.tonic hq) hne hm (h.hi _ h1) (h.lo _ hq) (h3 q hq hpm)

theorem Scored.unrefined {l : List (Key × F32)} (maj : Bool) (hm : ¬ 1e-9 < (topOf maj l).2) {p : Key × F32}
    (hp : p ∈ refineScores l) (hpm : isMajor p.1 = maj) : p ∈ l := by
  obtain ⟨q, hq, rfl⟩ := mem_refine hp
  rw [refineOne_fst] at hpm
  rw [hpm, show topOf maj l = ((topOf maj l).1, (topOf maj l).2) from rfl, show q = (q.1, q.2) from rfl, refine_same hm]
  exact hq

/-- normalised scores -/
theorem Scored.norm {l : List (Key × F32)} (h : Scored l) (hM : 1e-9 < modeMax true l) (hm : 1e-9 < modeMax false l) :
    Scored (normScores l) ∧ ∀ maj, (topOf maj (normScores l)).2 = 1 ∧ ((topOf maj (normScores l)).1, modeMax maj l) ∈ l := by
  have e : normScores l = l.map (fun p => (p.1, p.2 / modeMax (isMajor p.1) l)) := by
    unfold normScores
    rw [if_pos ⟨hM, hm⟩]
    apply List.map_congr_left
    intro p _
    cases isMajor p.1 <;> rfl
  have hpos : ∀ maj, 1e-9 < modeMax maj l := by intro maj; cases maj; exacts [hm, hM]
  have h0 : ∀ maj, 0 < modeMax maj l := fun maj => F32.lt_trans (by decide +kernel) (hpos maj)
  have hfin : ∀ maj, (modeMax maj l).isFinite = true := fun maj => by
    rw [h.modeMax_eq]
    exact isFinite_of_between (by decide +kernel) (by decide +kernel) (h.lo _ (h.top maj).1) (h.hi _ (h.top maj).1)
  have hle : ∀ q ∈ l, q.2 ≤ modeMax (isMajor q.1) l := fun q hq => by
    rw [h.modeMax_eq]; exact (h.top _).2.2 q hq rfl
  have hu : ∀ p ∈ normScores l, 0 ≤ p.2 ∧ p.2 ≤ 1 := by
    intro p hp
    rw [e] at hp
    obtain ⟨q, hq, rfl⟩ := List.mem_map.1 hp
    exact F32.div_le_one (h.lo q hq) (hle q hq) (h0 _) (hfin _)
  have hS : Scored (normScores l) := ⟨by rw [normScores_fst, h.keys], fun p hp => (hu p hp).1,
    fun p hp => F32.le_trans (hu p hp).2 (by decide +kernel)⟩
  refine ⟨hS, fun maj => ?_⟩
  obtain ⟨t1, t2, t3⟩ := hS.top maj
  obtain ⟨u1, u2, u3⟩ := h.top maj
  obtain ⟨v, hv, ev⟩ := le_fin_val (hfin maj)
  have hv0 : 0 < v := by have := h0 maj; rw [ev, zero_def] at this; exact fin_lt_fin.1 this
  have hone : ((topOf maj l).1, (1 : F32)) ∈ normScores l := by
    rw [e]
    refine List.mem_map.2 ⟨topOf maj l, u1, ?_⟩
    rw [u2, ← h.modeMax_eq, ev, div_self' hv0]
  have h1 : (topOf maj (normScores l)).2 = 1 :=
    F32.le_antisymm (hu _ t1).2 (t3 _ hone u2)
  refine ⟨h1, ?_⟩
  have t1' := t1
  rw [e] at t1'
  obtain ⟨q, hq, eq⟩ := List.mem_map.1 t1'
  rw [← e] at eq
  have hk : q.1 = (topOf maj (normScores l)).1 := by rw [← eq]
  have hval : q.2 / modeMax (isMajor q.1) l = 1 := by rw [← h1, ← eq]
  have hqm : isMajor q.1 = maj := by rw [hk, t2]
  rw [hqm] at hval
  have hqle := hle q hq
  rw [hqm] at hqle
  rw [← hk]
  have : q.2 = modeMax maj l := by
    have q0 := h.lo q hq
    rw [ev] at hqle hval ⊢
    rw [zero_def] at q0
    obtain ⟨u, hu, eu, z1, z2⟩ := between_cases q0 hqle
    rw [eu] at hval ⊢
    rcases eq_or_lt_of_le z2 with z2 | z2
    · subst z2; rfl
    · have := F32.div_lt_one (ha := hu) (hb := hv) z1 z2
      rw [hval] at this
      exact absurd this (F32.lt_irrefl _)
  rw [← this]
  exact hq

end Verif.KeyDet
