/-
Property theorems C145: what the key clarity measures (src/features/key/key_clarity.rs).
-/
import Verif.Props.KeyClarity
import Verif.Props.ClickGrid

namespace Verif.Props
open Verif Verif.Keys Verif.KeyDet F32

/-- Specification: the values of a ranked list of scores, from the best `v` down to the lowest `w`. -/
structure RankedScores (scores : List (Key × F32)) (v w : ℚ) : Prop where
  first : ∃ k hv l, scores = (k, fin v hv) :: l
  last : ∃ p ∈ scores, p.2.isFinite = true ∧ p.2.val = w
  between : ∀ p ∈ scores, p.2.isFinite = true ∧ w ≤ p.2.val ∧ p.2.val ≤ v

/-- Specification: mean of the scores, as a rational number. -/
def meanScore (scores : List (Key × F32)) : ℚ := (scores.map (fun p => p.2.val)).sum / scores.length

theorem clamp_near {x e : ℚ} {hx} {d : ℚ} (e0 : 0 ≤ e) (e1 : e ≤ 1) (h : |x - e| ≤ d) :
    ∃ c hc, F32.clamp (fin x hx) 0 1 = fin c hc ∧ |c - e| ≤ d := by
  have h' := abs_le.1 h
  unfold F32.clamp
  dsimp only
  rw [zero_def, one_def]
  simp only [fin_lt_fin]
  by_cases h0 : x < 0
  · rw [if_pos h0, if_neg (by rw [fin_lt_fin]; norm_num)]
    exact ⟨0, F32.grid_zero, rfl, abs_le.2 ⟨by linarith, by linarith⟩⟩
  · rw [if_neg h0]
    by_cases h1 : 1 < x
    · rw [if_pos (by rw [fin_lt_fin]; exact h1)]
      exact ⟨1, F32.grid_one, rfl, abs_le.2 ⟨by linarith, by linarith⟩⟩
    · rw [if_neg (by rw [fin_lt_fin]; exact h1)]
      exact ⟨x, hx, rfl, h⟩

/-- average of the scores in single precision -/
theorem score_avg {scores : List (Key × F32)} {v w : ℚ} (h : RankedScores scores v w) (w0 : 0 ≤ w) (v1 : v ≤ 1024)
    (v0 : 1 / 1024 ≤ v) (hn : scores.length ≤ 64) :
    ∃ A hA, F32.sum (scores.map Prod.snd) / F32.ofNat scores.length = fin A hA ∧ |A - meanScore scores| ≤ v * (78 / 10 ^ 7) ∧
      w ≤ meanScore scores ∧ meanScore scores ≤ v := by
  have hne : scores ≠ [] := by obtain ⟨k, hv, l, e⟩ := h.first; simp [e]
  have hn1 : 1 ≤ scores.length := List.length_pos_iff.2 hne
  have hnq : (1 : ℚ) ≤ scores.length := by exact_mod_cast hn1
  have hnq2 : (scores.length : ℚ) ≤ 64 := by exact_mod_cast hn
  have em : ((scores.map Prod.snd).map F32.val).sum = (scores.map (fun p => p.2.val)).sum := by rw [List.map_map]; rfl
  have hup : (scores.map (fun p => p.2.val)).sum ≤ scores.length * v := sum_map_le scores _ _ (fun p hp => (h.between p hp).2.2)
  have hlo : scores.length * w ≤ (scores.map (fun p => p.2.val)).sum := sum_map_ge scores _ _ (fun p hp => (h.between p hp).2.1)
  obtain ⟨S, hS, eS, S0, bS⟩ := sum_rel (scores.map Prod.snd) (fun x hx => by
      obtain ⟨p, hp, rfl⟩ := List.mem_map.1 hx
      exact ⟨(h.between p hp).1, _root_.le_trans w0 (h.between p hp).2.1⟩)
    (by rw [em]; exact _root_.le_trans hup (by norm_num; nlinarith)) (by rw [List.length_map]; omega)
  rw [em, List.length_map] at bS
  have bS' := abs_le.1 bS
  rw [eS, ofNat_exact (by omega), div_fin (by linarith)]
  unfold meanScore
  generalize (scores.map (fun p => p.2.val)).sum = Q at *
  generalize (scores.length : ℚ) = n at *
  have hQ0 : 0 ≤ Q := by nlinarith
  have m1 : Q / n ≤ v := by rw [div_le_iff₀ (by linarith)]; linarith
  have m0 : w ≤ Q / n := by rw [le_div_iff₀ (by linarith)]; linarith
  have en : Q / n * n = Q := div_mul_cancel₀ Q (by linarith)
  have hA : Q * (n / 2 ^ 23) ≤ Q * (1 / 131072) := _root_.mul_le_mul_of_nonneg_left (by norm_num; linarith) hQ0
  have hB : n / 2 ^ 149 ≤ n * v * (1 / 10 ^ 9) := by norm_num; nlinarith
  have hm : 0 ≤ Q / n := _root_.le_trans w0 m0
  have k1 : S / n ≤ Q / n + v * (77 / 10 ^ 7) := by
    rw [div_le_iff₀ (by linarith), _root_.add_mul, en]
    norm_num at hA hB bS' ⊢; nlinarith [bS'.2]
  have k2 : Q / n - v * (77 / 10 ^ 7) ≤ S / n := by
    rw [le_div_iff₀ (by linarith), _root_.sub_mul, en]
    norm_num at hA hB bS' ⊢; nlinarith [bS'.1]
  have k0 : 0 ≤ S / n := _root_.div_nonneg S0 (by linarith)
  have hab : |S / n| ≤ 2048 := by rw [_root_.abs_of_nonneg k0]; norm_num at k1 ⊢; linarith
  obtain ⟨hM, eM⟩ := fin_of_le (q := S / n) (_root_.le_trans hab (by norm_num))
  refine ⟨_, hM, eM, ?_, m0, m1⟩
  have b4 := err_pow (S / n)
  rw [_root_.abs_of_nonneg k0] at b4
  have b4' := abs_le.1 b4
  rw [abs_le]
  norm_num at b4' k1 k2 ⊢
  constructor <;> linarith [b4'.1, b4'.2]

/-- **C145 (partial)**: the clarity is, to within 0.02, the distance of the best score from the mean, measured in units of the range from
the lowest to the best score, whenever that range is at least a thousandth of the best score.  Hence a key that leads all others by a
fraction `L` of the range has a clarity of at least `L * (N - 1) / N - 0.02`.  Missing: that a high clarity means a clear key
(`C145_violated`, `C145_violated_noise`). -/
theorem C145_clear_partial (scores : List (Key × F32)) (v w : ℚ) (h : RankedScores scores v w) (w0 : 0 ≤ w) (v1 : v ≤ 1024)
    (v0 : 1 / 1024 ≤ v) (h2 : 2 ≤ scores.length) (hn : scores.length ≤ 64) (hrange : v / 1000 ≤ v - w) :
    ∃ c hc, keyClarity scores = .ok (fin c hc) ∧ |c - (v - meanScore scores) / (v - w)| ≤ 1 / 50 ∧
      ∀ L, (∀ p ∈ scores.tail, p.2.val ≤ v - L * (v - w)) → L * ((scores.length - 1) / scores.length) - 1 / 50 ≤ c := by
  have hnan : ∀ p ∈ scores, p.2 ≠ nan := fun p hp => by
    have := (h.between p hp).1
    intro hh; rw [hh] at this; simp [F32.isFinite] at this
  obtain ⟨best, lo, hi, hb, mlo, mhi, hall, e⟩ := clarity_eq h2 hnan
  obtain ⟨A, hA, eA, bA, m0, m1⟩ := score_avg h w0 v1 v0 hn
  obtain ⟨k, hv, l, es⟩ := h.first
  have ebest : best = fin v hv := by rw [es] at hb; simpa using hb.symm
  have ehi : hi = fin v hv := by
    obtain ⟨p, hp, rfl⟩ := List.mem_map.1 mhi
    obtain ⟨x, hx, ex⟩ := isFinite_iff.1 (h.between p hp).1
    have a1 := (h.between p hp).2.2
    have a2 := (hall (k, fin v hv) (by rw [es]; simp)).2
    rw [ex] at a1 a2 ⊢
    simp only [fin_le_fin] at a2
    have : x = v := _root_.le_antisymm a1 a2
    subst this; rfl
  have elo : ∃ hw, lo = fin w hw := by
    obtain ⟨p, hp, rfl⟩ := List.mem_map.1 mlo
    obtain ⟨x, hx, ex⟩ := isFinite_iff.1 (h.between p hp).1
    obtain ⟨q, hq, fq, vq⟩ := h.last
    obtain ⟨y, hy, ey⟩ := isFinite_iff.1 fq
    have a1 := (h.between p hp).2.1
    have a2 := (hall q hq).1
    rw [ex] at a1 a2 ⊢
    rw [ey] at a2 vq
    simp only [fin_le_fin] at a2
    have vq' : y = w := vq
    have : x = w := _root_.le_antisymm (vq' ▸ a2) a1
    subst this; exact ⟨hx, rfl⟩
  obtain ⟨hw, elo⟩ := elo
  rw [e, eA, ebest, ehi, elo, sub_fin, sub_fin]
  have hlead : ∀ L, (∀ p ∈ scores.tail, p.2.val ≤ v - L * (v - w)) →
      L * ((scores.length - 1) / scores.length) ≤ (v - meanScore scores) / (v - w) := by
    intro L hL
    have hpos : 0 < v - w := by linarith
    have hs : (scores.map (fun p => p.2.val)).sum ≤ v + (scores.length - 1) * (v - L * (v - w)) := by
      rw [es] at hL ⊢
      have := sum_map_le l (fun p => p.2.val) _ (fun p hp => hL p (by simpa using hp))
      simp only [List.map_cons, List.sum_cons, List.length_cons, Nat.cast_add, Nat.cast_one, add_sub_cancel_right]
      have e1 : (fin v hv).val = v := rfl
      rw [e1]; linarith
    have hnq : (0 : ℚ) < scores.length := by exact_mod_cast (by omega : 0 < scores.length)
    rw [le_div_iff₀ hpos]
    unfold meanScore
    have : L * ((scores.length - 1) / scores.length) * (v - w) = (L * (scores.length - 1) * (v - w)) / scores.length := by ring
    rw [this, div_le_iff₀ hnq, _root_.sub_mul, div_mul_cancel₀ _ hnq.ne']
    linarith
  generalize meanScore scores = m at *
  obtain ⟨ρ, hρ⟩ : ∃ ρ, ρ = v - w := ⟨_, rfl⟩
  rw [← hρ] at hrange hlead ⊢
  have ρ0 : 1 / 1024000 ≤ ρ := by linarith
  have ρ1 : ρ ≤ 1024 := by linarith
  have bA' := abs_le.1 bA
  have hD : |v - A - (v - m)| ≤ ρ * (78 / 10 ^ 4) := abs_le.2 ⟨by norm_num at bA' ⊢; linarith [bA'.2], by norm_num at bA' ⊢; linarith [bA'.1]⟩
  have hD' := abs_le.1 hD
  have hDabs : |v - A| ≤ 2 * ρ := by
    norm_num at hD'
    exact abs_le.2 ⟨by linarith [hD'.1], by linarith [hD'.2]⟩
  obtain ⟨hd, ed⟩ := fin_of_le (q := v - A) (_root_.le_trans hDabs (by norm_num; linarith))
  obtain ⟨hr, er⟩ := fin_of_le (q := ρ) (by rw [_root_.abs_of_nonneg (by linarith)]; norm_num; linarith)
  have b1 := abs_le.1 (err_pow (v - A))
  have b2 := abs_le.1 (_root_.abs_of_nonneg (show (0 : ℚ) ≤ ρ by linarith) ▸ err_pow ρ)
  rw [ed, er]
  generalize rndQ (v - A) = D at *
  generalize rndQ ρ = r at *
  have r1 : r ≤ ρ + ρ * (1 / 10 ^ 6) := by norm_num at b2 ⊢; linarith [b2.2]
  have r2 : ρ - ρ * (1 / 10 ^ 6) ≤ r := by norm_num at b2 ⊢; linarith [b2.1]
  have rpos : 0 < r := by norm_num at r2; linarith
  rw [if_pos (by
    obtain ⟨t, ht, et, hlt⟩ : ∃ t ht, (1e-10 : F32) = fin t ht ∧ t < 1 / 10 ^ 9 := ⟨(1e-10 : F32).val, by decide +kernel, by decide +kernel, by decide +kernel⟩
    rw [et, fin_lt_fin]; norm_num at hlt r2; linarith), div_fin rpos.ne']
  obtain ⟨x, hx⟩ : ∃ x, x = (v - m) / ρ := ⟨_, rfl⟩
  have ex : x * ρ = v - m := by rw [hx]; exact div_mul_cancel₀ _ (by linarith)
  have x0 : 0 ≤ x := by rw [hx]; exact _root_.div_nonneg (by linarith) (by linarith)
  have x1 : x ≤ 1 := by rw [hx, _root_.div_le_one (by linarith)]; linarith
  rw [← hx]
  rw [← hx] at hlead
  have d1 : D ≤ x * ρ + ρ * (79 / 10 ^ 4) := by norm_num at b1 hD' ⊢; linarith [b1.2, hD'.2]
  have d2 : x * ρ - ρ * (79 / 10 ^ 4) ≤ D := by norm_num at b1 hD' ⊢; linarith [b1.1, hD'.1]
  have g1 : D / r ≤ x + 1 / 100 := by
    rw [div_le_iff₀ rpos]
    norm_num at d1 r2 ⊢
    nlinarith [_root_.mul_le_mul_of_nonneg_left r2 x0]
  have g2 : x - 1 / 100 ≤ D / r := by
    rw [le_div_iff₀ rpos]
    norm_num at d2 r1 r2 ⊢
    nlinarith [_root_.mul_le_mul_of_nonneg_left r1 x0]
  have gab : |D / r| ≤ 2 := abs_le.2 ⟨by linarith, by linarith⟩
  obtain ⟨hq, eq⟩ := fin_of_le (q := D / r) (_root_.le_trans gab (by norm_num))
  have b3 := abs_le.1 (err_pow (D / r))
  rw [eq]
  obtain ⟨c, hc, ec, bc⟩ := clamp_near (hx := hq) (d := 1 / 50) x0 x1 (abs_le.2 ⟨by norm_num at b3 ⊢; linarith [b3.1], by norm_num at b3 ⊢; linarith [b3.2]⟩)
  refine ⟨c, hc, by rw [ec], bc, fun L hL => ?_⟩
  have := hlead L hL
  linarith [(abs_le.1 bc).1]

/-- the 24 keys with the given scores, in the order of `allKeys` -/
def scored (f : ℕ → F32) : List (Key × F32) := allKeys.zipIdx.map (fun p => (p.1, f p.2))

example : RankedScores (scored (fun i => if i = 0 then 1 else 1 / 4)) 1 (1 / 4) :=
  ⟨⟨.major 0, by decide +kernel, (scored (fun i => if i = 0 then 1 else 1 / 4)).tail, by decide +kernel⟩,
    ⟨(.minor 11, 1 / 4), by decide +kernel, by decide +kernel, by decide +kernel⟩, by decide +kernel⟩

/-- **C145 violated**: two keys share the best score and all others score nothing, so that the key is undecided; the clarity is above 0.9
all the same. -/
theorem C145_violated :
    ∃ scores : List (Key × F32), ∃ a b : Key, ∃ c, a ≠ b ∧ scores.length = 24 ∧ (scores.map Prod.fst).Nodup ∧
      (a, 1) ∈ scores ∧ (b, 1) ∈ scores ∧ (∀ p ∈ scores, p.2 ≤ 1) ∧ keyClarity scores = .ok c ∧ 0.9 < c :=
  ⟨scored (fun i => if i < 2 then 1 else 0), .major 0, .major 1, 22 / 24, by decide +kernel⟩

/-- **C145 violated** by flat scores: all keys fit equally well to within two parts in a million; the clarity is above 0.9 all the same. -/
theorem C145_violated_noise :
    ∃ scores : List (Key × F32), ∃ c, scores.length = 24 ∧ (scores.map Prod.fst).Nodup ∧
      (∀ p ∈ scores, p.2.isFinite = true ∧ |p.2.val - 1 / 2| ≤ 2 / 10 ^ 6) ∧ keyClarity scores = .ok c ∧ 0.9 < c :=
  ⟨scored (fun i => if i = 0 then 0.5 + 0.0000019 else 0.5), 31 / 32, by decide +kernel⟩

end Verif.Props
