/-
What the autocorrelation tempogram makes of a steady pulse (C100): src/features/period/tempogram_autocorr.rs.
-/
import Verif.Props.TempoScan

namespace Verif.Props
open Verif F32 Tempogram

/-! ### Specification -/

/-- a novelty curve with `n` pulses, one every `p` frames, the first one at frame `f` -/
def pulseTrain (p f n : ℕ) : List F32 := (List.range (n * p)).map (fun i => if i % p = f then 1 else 0)

/-- the beat length of a tempo in whole frames is a multiple of the pulse period and shorter than the curve -/
def Resonates (sr hop p n : ℕ) (bpm : F32) : Prop := p ∣ lagAt sr hop bpm ∧ lagAt sr hop bpm < n * p

/-! ### The first of the largest leads a stable sort -/

theorem sortDesc_first {α : Type} {key : α → F32} {l : List α} (hn : ∀ a ∈ l, key a ≠ nan) {a : α}
    (h : (sortDesc key l).head? = some a) :
    ∃ l1 l2, l = l1 ++ a :: l2 ∧ (∀ b ∈ l1, key b < key a) ∧ ∀ b ∈ l2, key b ≤ key a := by
  induction l generalizing a with
  | nil => simp [sortDesc, rsort] at h
  | cons x l ih =>
    have hs : sortDesc key (x :: l) = insertBy (fun a b => decide (¬ key a < key b)) x (sortDesc key l) := rfl
    rw [hs] at h
    rcases he : sortDesc key l with _ | ⟨b, r⟩
    · rw [he] at h
      have hl : l = [] := by
        have := length_sortDesc (key := key) l
        rw [he] at this
        exact List.length_eq_zero_iff.1 this.symm
      subst hl
      cases h
      exact ⟨[], [], rfl, by simp, by simp⟩
    · obtain ⟨l1, l2, e, h1, h2⟩ := ih (fun b hb => hn b (List.mem_cons_of_mem _ hb)) (by rw [he]; rfl : (sortDesc key l).head? = some b)
      have hb : b ∈ l := by rw [e]; simp
      rw [he] at h
      unfold insertBy at h
      by_cases hx : key x < key b
      · rw [if_neg (by simp [hx])] at h
        cases h
        refine ⟨x :: l1, l2, by rw [e]; rfl, ?_, h2⟩
        intro c hc
        rcases List.mem_cons.1 hc with rfl | hc
        · exact hx
        · exact h1 c hc
      · rw [if_pos (by simp [hx])] at h
        cases h
        have hxb : key b ≤ key x := le_of_not_lt (hn b (List.mem_cons_of_mem _ hb)) (hn x (by simp)) hx
        refine ⟨[], l, rfl, by simp, fun c hc => ?_⟩
        rw [e, List.mem_append, List.mem_cons] at hc
        rcases hc with hc | rfl | hc
        · exact F32.le_trans (F32.le_of_lt (h1 c hc)) hxb
        · exact hxb
        · exact F32.le_trans (h2 c hc) hxb

/-! ### Strengths of a pulse train -/

theorem sum_zero_one {α : Type} (f : α → Bool) (l : List α) (hl : l.length ≤ 2 ^ 24) :
    F32.sum (l.map (fun i => if f i = true then (1 : F32) else 0)) = F32.ofNat (l.countP f) := by
  induction l using List.reverseRecOn with
  | nil => rw [List.countP_nil, ofNat_zero]; rfl
  | append_singleton l x ih =>
    rw [List.length_append, List.length_singleton] at hl
    have hc : l.countP f ≤ l.length := List.countP_le_length
    rw [List.map_append, List.countP_append, show ∀ a b : List F32, F32.sum (a ++ b) = b.foldl (· + ·) (F32.sum a) from
      fun a b => by unfold F32.sum; rw [List.foldl_append], ih (by omega)]
    show F32.ofNat (l.countP f) + (if f x = true then (1 : F32) else 0) = _
    rw [List.countP_singleton]
    rcases f x with _ | _
    · rw [if_neg (by simp), if_neg (by simp), Nat.add_zero, ofNat_exact (by omega), zero_def, add_fin, _root_.add_zero, rnd_val]
    · rw [if_pos rfl, if_pos rfl]
      rw [ofNat_exact (by omega), one_def, add_fin]
      unfold F32.ofNat
      push_cast
      rfl

theorem countP_mod (p f m : ℕ) (hf : f < p) :
    (List.range (m * p)).countP (fun i => decide (i % p = f)) = m := by
  induction m with
  | zero => simp
  | succ m ih =>
    have e : List.range ((m + 1) * p) = List.range (m * p) ++ (List.range p).map (m * p + ·) := by
      rw [← List.range_add, Nat.succ_mul]
    rw [e, List.countP_append, ih, List.countP_map]
    have : (List.range p).countP ((fun i => decide (i % p = f)) ∘ (m * p + ·)) = (List.range p).countP (fun i => i == f) := by
      refine List.countP_congr fun i hi => ?_
      have hi' := List.mem_range.1 hi
      have : (m * p + i) % p = i := by rw [Nat.mul_comm, Nat.mul_add_mod, Nat.mod_eq_of_lt hi']
      simp [Function.comp, this]
    rw [this]
    have h1 : (List.range p).count f = 1 := List.count_eq_one_of_mem List.nodup_range (List.mem_range.2 hf)
    rw [← h1]
    rfl

theorem lagMean_pulse {p f n : ℕ} (hp : 0 < p) (hf : f < p) (hN : n * p ≤ 2 ^ 24) (lag : ℕ) :
    lagMean (pulseTrain p f n) lag = if p ∣ lag ∧ lag < n * p then 1 / F32.ofNat p else 0 := by
  have hlen : (pulseTrain p f n).length = n * p := by unfold pulseTrain; simp
  have hget : ∀ i < n * p, (pulseTrain p f n).getD i 0 = if i % p = f then 1 else 0 := by
    intro i hi
    unfold pulseTrain
    rw [List.getD_eq_getElem?_getD, List.getElem?_map, List.getElem?_range hi]
    rfl
  unfold lagMean
  rw [hlen]
  by_cases hl : lag < n * p
  · rw [if_pos hl]
    have hmap : (List.range (n * p - lag)).map (fun i => (pulseTrain p f n).getD i 0 * (pulseTrain p f n).getD (i + lag) 0) =
        (List.range (n * p - lag)).map (fun i => if (decide (i % p = f) && decide ((i + lag) % p = f)) = true then (1 : F32) else 0) := by
      refine List.map_congr_left fun i hi => ?_
      have hi' := List.mem_range.1 hi
      rw [hget i (by omega), hget (i + lag) (by omega)]
      by_cases h1 : i % p = f <;> by_cases h2 : (i + lag) % p = f <;> simp only [h1, h2, if_true, if_false, decide_true,
        decide_false, Bool.and_true, Bool.and_false, Bool.false_eq_true] <;> decide +kernel
    rw [hmap, sum_zero_one _ _ (by rw [List.length_range]; omega)]
    by_cases hd : p ∣ lag
    · rw [if_pos ⟨hd, hl⟩]
      obtain ⟨k, rfl⟩ := hd
      have hk : k < n := by
        rw [Nat.mul_comm n p] at hl
        exact Nat.lt_of_mul_lt_mul_left hl
      have e : n * p - p * k = (n - k) * p := by rw [Nat.sub_mul, Nat.mul_comm p k]
      have hc : (List.range (n * p - p * k)).countP (fun i => decide (i % p = f) && decide ((i + p * k) % p = f)) = n - k := by
        rw [e]
        conv_rhs => rw [← countP_mod p f (n - k) hf]
        refine List.countP_congr fun i _ => ?_
        simp [Nat.add_mul_mod_self_left]
      rw [hc, e]
      have hle : (n - k) * p ≤ 2 ^ 24 := by
        refine Nat.le_trans (Nat.mul_le_mul_right p (Nat.sub_le n k)) hN
      have hn1 : 1 ≤ n - k := by omega
      have hle1 : n - k ≤ 2 ^ 24 := Nat.le_trans (Nat.le_mul_of_pos_right _ hp) hle
      have hle2 : p ≤ 2 ^ 24 := Nat.le_trans (Nat.le_mul_of_pos_left _ (by omega)) hle
      have hpq : (p : ℚ) ≠ 0 := by exact_mod_cast hp.ne'
      have hkq : ((n - k : ℕ) : ℚ) ≠ 0 := by exact_mod_cast (by omega : n - k ≠ 0)
      rw [ofNat_exact hle, ofNat_exact hle1, ofNat_exact hle2, one_def, div_fin (by push_cast; exact mul_ne_zero hkq hpq),
        div_fin hpq]
      congr 1
      push_cast
      field_simp
    · rw [if_neg (fun h => hd h.1)]
      have hc : (List.range (n * p - lag)).countP (fun i => decide (i % p = f) && decide ((i + lag) % p = f)) = 0 := by
        rw [List.countP_eq_zero]
        intro i hi h
        simp only [Bool.and_eq_true, decide_eq_true_eq] at h
        apply hd
        have : (i + lag) % p = i % p := by rw [h.1, h.2]
        have h3 := Nat.sub_mod_eq_zero_of_mod_eq this
        rw [Nat.add_sub_cancel_left] at h3
        exact Nat.dvd_of_mod_eq_zero h3
      rw [hc, ofNat_zero]
      have hm : 0 < n * p - lag := by omega
      rw [zero_def, ofNat_exact (by omega : n * p - lag ≤ 2 ^ 24), div_fin (by exact_mod_cast hm.ne'), zero_div, rnd_zero, zero_def]
  · rw [if_neg hl, if_neg (fun h => hl h.2)]

/-! ### The scan -/

theorem grid_step {b res : F32} {k j : ℕ} : gridBpm b res (k + j) = gridBpm (gridBpm b res k) res j := by
  unfold gridBpm
  rw [Nat.add_comm, Function.iterate_add_apply]

theorem inv_period_pos {p : ℕ} (hp : 0 < p) (hp' : p ≤ 2 ^ 24) : (0 : F32) < 1 / F32.ofNat p := by
  have hpq : (0 : ℚ) < p := by exact_mod_cast hp
  have hpb : (p : ℚ) ≤ 2 ^ 24 := by exact_mod_cast hp'
  rw [ofNat_exact hp', one_def, div_fin hpq.ne', zero_def]
  have h : rnd (pow2 (-24)) ≤ rnd (1 / (p : ℚ)) := by
    refine rnd_mono ?_
    rw [show pow2 (-24) = 1 / 2 ^ 24 from by rw [pow2_eq]; norm_num]
    exact one_div_le_one_div_of_le hpq hpb
  exact lt_of_lt_of_le (by decide +kernel) h

theorem inv_period_le {p : ℕ} (hp : 0 < p) (hp' : p ≤ 2 ^ 24) : 1 / F32.ofNat p ≤ 1 := by
  have hpq : (1 : ℚ) ≤ p := by exact_mod_cast hp
  rw [ofNat_exact hp', one_def, div_fin (by linarith)]
  exact rnd_le_fin (by rw [_root_.div_le_one (by linarith)]; exact hpq)

/-- **C100 (what the scan reports on a steady pulse).**  Every tempo whose beat length in whole frames is a multiple of the
pulse period gets the same strength and every other tempo strength 0, so the best entry is the slowest of the scanned
tempos whose beat is a multiple of the pulse period; if there are two of them its confidence is 0. -/
theorem C100_pulse (fuel p f n sr hop : ℕ) (hp : 0 < p) (hf : f < p) (hN : n * p ≤ 2 ^ 24) (minB maxB res : F32)
    (t : List (F32 × F32)) (h : acTempogram fuel (pulseTrain p f n) sr hop minB maxB res = .ok t) :
    (∀ e ∈ t, (Resonates sr hop p n e.1 ∧ e.2 = 1 / F32.ofNat p) ∨ (¬ Resonates sr hop p n e.1 ∧ e.2 = 0)) ∧
    ∀ b, findBest t = some b → ∀ e ∈ t, Resonates sr hop p n e.1 →
      Resonates sr hop p n b.bpm ∧ b.strength = 1 / F32.ofNat p ∧ b.bpm ≤ e.1 ∧
      (e.1 ≠ b.bpm → b.conf = 0) := by
  unfold acTempogram at h
  split_ifs at h with h1 h2 h3 h4 h5
  obtain ⟨l, hl, h⟩ := R.bind_eq_ok.1 h
  cases h
  obtain ⟨m, -, rfl, hn1, hn2⟩ := acLoop_eq fuel hl
  have hnp : 0 < n := by
    rcases Nat.eq_zero_or_pos n with rfl | hn
    · exfalso; apply h1; unfold pulseTrain; simp
    · exact hn
  have hp24 : p ≤ 2 ^ 24 := Nat.le_trans (Nat.le_mul_of_pos_left _ hnp) hN
  have hpos := inv_period_pos hp hp24
  have hval : ∀ e ∈ (List.range m).map (fun k => (gridBpm minB res k, lagMean (pulseTrain p f n) (lagAt sr hop (gridBpm minB res k)))),
      (Resonates sr hop p n e.1 ∧ e.2 = 1 / F32.ofNat p) ∨ (¬ Resonates sr hop p n e.1 ∧ e.2 = 0) := by
    intro e he
    obtain ⟨k, -, rfl⟩ := List.mem_map.1 he
    dsimp only
    rw [lagMean_pulse hp hf hN]
    by_cases hr : Resonates sr hop p n (gridBpm minB res k)
    · exact .inl ⟨hr, if_pos hr⟩
    · exact .inr ⟨hr, if_neg hr⟩
  have hnn : ∀ e ∈ (List.range m).map (fun k => (gridBpm minB res k, lagMean (pulseTrain p f n) (lagAt sr hop (gridBpm minB res k)))),
      e.2 ≠ nan := by
    intro e he
    rcases hval e he with ⟨-, h⟩ | ⟨-, h⟩
    · rw [h]; exact ne_nan_right (F32.le_of_lt hpos)
    · rw [h]; decide +kernel
  refine ⟨fun e he => hval e (mem_sortDesc.1 he), fun b hb e he hr => ?_⟩
  have he' := mem_sortDesc.1 he
  have hpw := sortDesc_pairwise hnn
  rcases hs : sortDesc Prod.snd ((List.range m).map (fun k => (gridBpm minB res k, lagMean (pulseTrain p f n) (lagAt sr hop (gridBpm minB res k)))))
    with _ | ⟨a, ts⟩
  · rw [hs] at he; simp at he
  rw [hs] at hb hpw he
  obtain ⟨l1, l2, hdec, hl1, hl2⟩ := sortDesc_first hnn (by rw [hs]; rfl : List.head? _ = some a)
  have ha : a ∈ (List.range m).map (fun k => (gridBpm minB res k, lagMean (pulseTrain p f n) (lagAt sr hop (gridBpm minB res k)))) := by
    rw [hdec]; simp
  have hee : e.2 = 1 / F32.ofNat p := by
    rcases hval e he' with ⟨-, h⟩ | ⟨h, -⟩
    · exact h
    · exact absurd hr h
  have hea : e.2 ≤ a.2 := by
    rcases List.mem_cons.1 he with rfl | he
    · exact F32.le_refl (hnn _ ha)
    · exact (List.pairwise_cons.1 hpw).1 e he
  have hares : Resonates sr hop p n a.1 ∧ a.2 = 1 / F32.ofNat p := by
    rcases hval a ha with h | ⟨-, h⟩
    · exact h
    · rw [h, hee] at hea
      exact absurd hea (not_le_of_lt hpos)
  have hbb : b.bpm = a.1 ∧ b.strength = a.2 := by
    unfold findBest at hb
    cases hb
    exact ⟨rfl, rfl⟩
  have hle : a.1 ≤ e.1 := by
    rw [hdec, List.mem_append, List.mem_cons] at he'
    have hanan : a.1 ≠ nan := by
      obtain ⟨k, hk, rfl⟩ := List.mem_map.1 ha
      exact ne_nan_left (hn1 k (List.mem_range.1 hk))
    rcases he' with he' | rfl | he'
    · have := hl1 e he'
      rw [hee, hares.2] at this
      exact absurd this (fun h => not_le_of_lt h (F32.le_of_lt h))
    · exact F32.le_refl hanan
    · -- positions in the scan
      obtain ⟨i, hi, hei⟩ := List.mem_iff_getElem.1 he'
      have hai : ((List.range m).map (fun k => (gridBpm minB res k, lagMean (pulseTrain p f n) (lagAt sr hop (gridBpm minB res k)))))[l1.length]? = some a := by
        rw [hdec, List.getElem?_append_right (Nat.le_refl _)]; simp
      have hei' : ((List.range m).map (fun k => (gridBpm minB res k, lagMean (pulseTrain p f n) (lagAt sr hop (gridBpm minB res k)))))[l1.length + (i + 1)]? = some e := by
        rw [hdec, List.getElem?_append_right (by omega)]
        simp [hei, hi]
      rw [List.getElem?_map] at hai hei'
      have hb1 : l1.length + (i + 1) < m := by
        by_contra hc
        rw [List.getElem?_eq_none (by rw [List.length_range]; omega)] at hei'
        cases hei'
      rw [List.getElem?_range (by omega)] at hai
      rw [List.getElem?_range hb1] at hei'
      cases hai
      cases hei'
      show gridBpm minB res l1.length ≤ gridBpm minB res (l1.length + (i + 1))
      rw [grid_step]
      refine grid_ge h5 (F32.le_refl hanan) ⟨maxB, ?_⟩
      rw [← grid_step]
      exact hn1 _ hb1
  refine ⟨by rw [hbb.1]; exact hares.1, by rw [hbb.2]; exact hares.2, by rw [hbb.1]; exact hle, fun hne => ?_⟩
  rw [hbb.1] at hne
  rcases ts with _ | ⟨s, ts⟩
  · rcases List.mem_cons.1 he with rfl | he
    · exact absurd rfl hne
    · simp at he
  · have hse : e.2 ≤ s.2 := by
      rcases List.mem_cons.1 he with rfl | he
      · exact absurd rfl hne
      · rcases List.mem_cons.1 he with rfl | he
        · exact F32.le_refl (by rw [hee]; exact ne_nan_right (F32.le_of_lt hpos))
        · exact (List.pairwise_cons.1 (List.pairwise_cons.1 hpw).2).1 e he
    have hsa : s.2 = a.2 := by
      refine F32.le_antisymm ((List.pairwise_cons.1 hpw).1 s (by simp)) ?_
      rw [hares.2, ← hee]; exact hse
    unfold findBest at hb
    cases hb
    dsimp only
    rw [hsa]
    split_ifs
    · obtain ⟨q, hq, hfin⟩ := isFinite_iff.1 (isFinite_of_unit (F32.le_of_lt hpos) (inv_period_le hp hp24))
      rw [hares.2, hfin, sub_fin, sub_self, rnd_zero, show F32.max (0 : F32) 0 = 0 from by decide +kernel]
      have h0 : q ≠ 0 := by
        rintro rfl
        rw [hfin, zero_def, fin_lt_fin] at hpos
        exact lt_irrefl _ hpos
      rw [zero_def, div_fin h0, zero_div, rnd_zero]
      decide +kernel
    · rfl

/-- **C100 violated.**  A slower tempo on the scan whose beat is a multiple of the pulse period beats the tempo of the
pulse: the two have the same strength, the slower one comes first, and the confidence is 0. -/
theorem C100_violated (fuel p f n sr hop : ℕ) (hp : 0 < p) (hf : f < p) (hN : n * p ≤ 2 ^ 24) (minB maxB res : F32)
    (t : List (F32 × F32)) (h : acTempogram fuel (pulseTrain p f n) sr hop minB maxB res = .ok t) (b : Best)
    (hb : findBest t = some b) (own slow : F32 × F32) (ho : own ∈ t) (hs : slow ∈ t) (hlt : slow.1 < own.1)
    (hown : lagAt sr hop own.1 = p) (k : ℕ) (hslow : lagAt sr hop slow.1 = k * p) (hk1 : 1 ≤ k) (hk : k < n) :
    own.2 = slow.2 ∧ b.bpm ≤ slow.1 ∧ b.bpm < own.1 ∧ b.conf = 0 := by
  obtain ⟨h1, h2⟩ := C100_pulse fuel p f n sr hop hp hf hN minB maxB res t h
  have hrs : Resonates sr hop p n slow.1 := ⟨⟨k, by rw [hslow, Nat.mul_comm]⟩, by rw [hslow]; exact Nat.mul_lt_mul_of_pos_right hk hp⟩
  obtain ⟨hrb, hst, hle, -⟩ := h2 b hb slow hs hrs
  have hbo : b.bpm < own.1 := lt_of_le_of_lt hle hlt
  have hn2 : 1 < n := by omega
  have hro : Resonates sr hop p n own.1 := ⟨⟨1, by rw [hown, Nat.mul_one]⟩, by rw [hown]; nlinarith⟩
  obtain ⟨-, -, -, hc⟩ := h2 b hb own ho hro
  refine ⟨?_, hle, hbo, hc fun e => ?_⟩
  · rcases h1 own ho with ⟨-, e1⟩ | ⟨e1, -⟩
    · rcases h1 slow hs with ⟨-, e2⟩ | ⟨e2, -⟩
      · rw [e1, e2]
      · exact absurd hrs e2
    · exact absurd hro e1
  · rw [e] at hbo
    exact not_le_of_lt hbo (F32.le_of_lt hbo)

/-- every beat length from `L` to `2L` frames occurs on the scan, at a tempo below `lim` -/
def Dense (res : F32) (L K : ℕ) (lim : F32) : Prop :=
  (∀ l < 2 * L + 1, L < l → ∃ k < K, lagAt 44100 512 (gridBpm 40 res k) = l ∧ gridBpm 40 res k < lim) ∧
    ∀ k < K, gridBpm 40 res k ≤ 240

theorem dense_violated {res : F32} {L K : ℕ} {lim : F32} (hd : Dense res L K lim) {fuel p f n : ℕ} (hp : 0 < p) (hp' : p ≤ L)
    (hf : f < p) (hlong : 2 * L < n * p) (hN : n * p ≤ 2 ^ 24) {t : List (F32 × F32)}
    (h : acTempogram fuel (pulseTrain p f n) 44100 512 40 240 res = .ok t) {b : Best} (hb : findBest t = some b) :
    b.bpm < lim := by
  have hmul : 2 * L / p * p ≤ 2 * L := Nat.div_mul_le_self _ p
  have hlow : L < 2 * L / p * p := by
    have := Nat.div_add_mod (2 * L) p
    have h2 := Nat.mod_lt (2 * L) hp
    rw [Nat.mul_comm] at this
    omega
  obtain ⟨k, hk, hL, hlt⟩ := hd.1 (2 * L / p * p) (by omega) hlow
  obtain ⟨⟨m, hperm, hm1, hm2⟩, -, -⟩ := C23_autocorr fuel _ 44100 512 40 240 res t h
  have hkm : k < m := by
    by_contra hc
    exact hm2 (hd.2 m (by omega))
  have hmem := hperm.mem_iff.2 (List.mem_map_of_mem (f := fun k => (gridBpm 40 res k,
    lagMean (pulseTrain p f n) (lagAt 44100 512 (gridBpm 40 res k)))) (List.mem_range.2 hkm))
  obtain ⟨-, h2⟩ := C100_pulse fuel p f n 44100 512 hp hf hN 40 240 res t h
  obtain ⟨-, -, hle, -⟩ := h2 b hb _ hmem ⟨by rw [hL]; exact Nat.dvd_mul_left .., by rw [hL]; omega⟩
  exact lt_of_le_of_lt hle hlt

theorem dense_half : Dense 0.5 54 107 93 := by unfold Dense; decide +kernel
theorem dense_one : Dense 1 36 100 140 := by unfold Dense; decide +kernel

/-- **C100 violated (documented defaults).**  At 44.1 kHz with hop 512 and the scan from 40 to 240 BPM in steps of 0.5 (the
documented defaults of the function), every steady pulse of at most 54 frames, that is faster than 95 BPM, is reported
slower than 93 BPM; in steps of 1 (`AnalysisConfig::default()`) every pulse faster than 143 BPM is reported slower than
140 BPM. -/
theorem C100_violated_default (p f n : ℕ) (hp : 0 < p) (hf : f < p) (hlong : 108 < n * p) (hN : n * p ≤ 2 ^ 24) :
    (p ≤ 54 → (95 : ℚ) < 60 * 44100 / (512 * p) ∧ ∃ N t b, (∀ fuel, N ≤ fuel →
      acTempogram fuel (pulseTrain p f n) 44100 512 40 240 0.5 = .ok t) ∧ findBest t = some b ∧ b.bpm < 93) ∧
    (p ≤ 36 → (143 : ℚ) < 60 * 44100 / (512 * p) ∧ ∃ N t b, (∀ fuel, N ≤ fuel →
      acTempogram fuel (pulseTrain p f n) 44100 512 40 240 1 = .ok t) ∧ findBest t = some b ∧ b.bpm < 140) := by
  have h0 : (0 : ℚ) < p := by exact_mod_cast hp
  have hlen : (pulseTrain p f n).length = n * p := by unfold pulseTrain; simp
  have hok : ScanOk (pulseTrain p f n) 44100 512 40 240 :=
    ⟨fun e => by rw [e, List.length_nil] at hlen; omega, by omega, by omega, by decide +kernel, by decide +kernel⟩
  have key : ∀ (res : F32) (L K : ℕ) (lim : F32), Dense res L K lim → 0 < res → res.isFinite = true →
      (240 : F32).val ≤ 2 ^ 22 * res.val → p ≤ L → 2 * L < n * p → ∃ N t b, (∀ fuel, N ≤ fuel →
      acTempogram fuel (pulseTrain p f n) 44100 512 40 240 res = .ok t) ∧ findBest t = some b ∧ b.bpm < lim := by
    intro res L K lim hd h1 h2 h3 hpL hlong
    obtain ⟨N, t, ht⟩ := C23_terminates_partial (pulseTrain p f n) 44100 512 40 240 res hok (by norm_num) (by rw [hlen]; omega)
      (by decide +kernel) (by decide +kernel) h1 h2 h3
    rcases hb : findBest t with _ | b
    · exfalso
      obtain ⟨⟨m, hperm, -, hm2⟩, -, -⟩ := C23_autocorr N _ 44100 512 40 240 res t (ht N (Nat.le_refl _))
      rw [(C23_best_partial t).1.1 hb] at hperm
      have := hperm.length_eq
      rw [List.length_map, List.length_range] at this
      rw [← this] at hm2
      exact hm2 (by show (40 : F32) ≤ 240; decide +kernel)
    · exact ⟨N, t, b, ht, hb, dense_violated hd hp hpL hf hlong hN (ht N (Nat.le_refl _)) hb⟩
  constructor
  · intro hp'
    refine ⟨?_, key 0.5 54 107 93 dense_half (by decide +kernel) (by decide +kernel) (by decide +kernel) hp' (by omega)⟩
    have : (p : ℚ) ≤ 54 := by exact_mod_cast hp'
    rw [lt_div_iff₀ (by positivity)]
    nlinarith
  · intro hp'
    refine ⟨?_, key 1 36 100 140 dense_one (by decide +kernel) (by decide +kernel) (by decide +kernel) hp' (by omega)⟩
    have : (p : ℚ) ≤ 36 := by exact_mod_cast hp'
    rw [lt_div_iff₀ (by positivity)]
    nlinarith

-- 120 BPM at 44.1 kHz and hop 512 is a pulse every 43 frames; the coarse scan 40, 80, .., 240 answers 40 BPM
example : acTempogram 10 (pulseTrain 43 7 4) 44100 512 40 240 40 =
    .ok [(40, 1 / 43), (120, 1 / 43), (80, 0), (160, 0), (200, 0), (240, 0)] ∧
    (findBest [(40, 1 / 43), (120, 1 / 43), (80, 0), (160, 0), (200, 0), (240, 0)]).map Best.bpm = some 40 ∧
    lagAt 44100 512 120 = 43 ∧ lagAt 44100 512 40 = 3 * 43 := by decide +kernel

end Verif.Props
