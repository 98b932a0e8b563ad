/-
Property theorems C144: rhythms that repeat with the bar (src/features/beat_tracking/time_signature.rs).
-/
import Verif.Props.Drift
import Verif.Lemmas.Merge

namespace Verif.Props
open Verif Verif.Beat F32

/-- Specification: the sequence repeats after `p` elements. -/
def RepeatsAfter (p : ℕ) (l : List F32) : Prop := ∀ i, i + p < l.length → l.getD (i + p) 0 = l.getD i 0

/-- Specification: gaps between 1/8 s and `G` seconds. -/
def GapsUpTo (G : ℚ) (l : List F32) : Prop := ∀ x ∈ l, ∃ v hv, x = fin v hv ∧ 1 / 8 ≤ v ∧ v ≤ G

theorem repeats_mod {p : ℕ} (hp : 0 < p) {l : List F32} (h : RepeatsAfter p l) : ∀ i, i < l.length → l.getD i 0 = l.getD (i % p) 0 := by
  intro i
  induction i using Nat.strong_induction_on with
  | _ i ih =>
    intro hi
    by_cases hlt : i < p
    · rw [Nat.mod_eq_of_lt hlt]
    · have h1 := h (i - p) (by omega)
      rw [Nat.sub_add_cancel (by omega)] at h1
      rw [h1, ih (i - p) (by omega) (by omega), ← Nat.mod_eq_sub_mod (by omega)]

/-- mean gap -/
theorem metre_mean {G : ℚ} (hG : G ≤ 2) {iv : List F32} (hne : iv ≠ []) (hn : iv.length ≤ 4096) (h : GapsUpTo G iv) :
    ∃ M hM, F32.sum iv / F32.ofNat iv.length = fin M hM ∧ 1 / 10 ≤ M ∧ M ≤ G * (101 / 100) := by
  have hv : ∀ x ∈ iv, x.isFinite = true ∧ 0 ≤ x.val ∧ 1 / 8 ≤ x.val ∧ x.val ≤ G := by
    intro x hx
    obtain ⟨v, hv, rfl, a, b⟩ := h x hx
    exact ⟨rfl, by show 0 ≤ v; linarith, a, b⟩
  have hG8 : 1 / 8 ≤ G := by
    obtain ⟨x, hx⟩ := List.exists_mem_of_ne_nil _ hne
    linarith [(hv x hx).2.2.1, (hv x hx).2.2.2]
  have hn1 : 1 ≤ iv.length := List.length_pos_iff.2 hne
  have hnq : (1 : ℚ) ≤ iv.length := by exact_mod_cast hn1
  have hnq2 : (iv.length : ℚ) ≤ 4096 := by exact_mod_cast hn
  have hup : (iv.map F32.val).sum ≤ iv.length * G := sum_map_le iv _ _ (fun x hx => (hv x hx).2.2.2)
  have hlo : iv.length * (1 / 8) ≤ (iv.map F32.val).sum := sum_map_ge iv _ _ (fun x hx => (hv x hx).2.2.1)
  obtain ⟨S, hS, eS, S0, bS⟩ := sum_rel iv (fun x hx => ⟨(hv x hx).1, (hv x hx).2.1⟩)
    (_root_.le_trans hup (by norm_num; nlinarith)) (by omega)
  have bS' := abs_le.1 bS
  rw [eS, ofNat_exact (by omega), div_fin (by linarith)]
  generalize (iv.map F32.val).sum = Q at *
  generalize (iv.length : ℚ) = n at *
  have hQ0 : 0 ≤ Q := by nlinarith
  have hA : Q * (n / 2 ^ 23) ≤ Q * (1 / 2048) :=
    _root_.mul_le_mul_of_nonneg_left (by norm_num; linarith) hQ0
  have hnT : n * (1 / 8) ≤ n * G := _root_.mul_le_mul_of_nonneg_left hG8 (by linarith)
  have hB : n / 2 ^ 149 ≤ n * (1 / 10 ^ 6) := by norm_num; linarith
  have d1 : S / n ≤ G * (1002 / 1000) := by
    rw [div_le_iff₀ (by linarith)]; norm_num at hA hB ⊢; nlinarith [bS'.2]
  have d2 : 12 / 100 ≤ S / n := by
    rw [le_div_iff₀ (by linarith)]; norm_num at hA hB ⊢; nlinarith [bS'.1]
  have hab : |S / n| ≤ 3 := abs_le.2 ⟨by linarith, by linarith⟩
  obtain ⟨hM, eM⟩ := fin_of_le (q := S / n) (_root_.le_trans hab (by norm_num))
  refine ⟨_, hM, eM, ?_⟩
  have b4 := abs_le.1 (err_pow (S / n))
  norm_num at b4 ⊢
  constructor <;> linarith [b4.1, b4.2]

/-- similarity of two gaps -/
theorem sim_range {a b m : ℚ} {ha hb hm} (m0 : 0 < m) (hab : |a| ≤ 2) (hbb : |b| ≤ 2) (hm10 : 1 / 10 ≤ m) :
    ∃ s hs, (1 / (1 + (fin a ha - fin b hb).abs / fin m hm) : F32) = fin s hs ∧ 0 ≤ s ∧ s ≤ 1 ∧ (a = b → s = 1) ∧
      (m * (7 / 50) ≤ |a - b| → s ≤ 57 / 64) := by
  have hd : |a - b| ≤ 4 := by
    have := abs_le.1 hab; have := abs_le.1 hbb
    exact abs_le.2 ⟨by linarith, by linarith⟩
  rw [sub_fin]
  obtain ⟨hq, e, hle⟩ := rnd_finite_of_abs_le (q := a - b) (b := 4) (by decide +kernel) hd
  rw [e, abs_fin, div_fin (_root_.ne_of_gt m0)]
  have hz : a = b → |rndQ (a - b)| = 0 := by
    rintro rfl
    rw [_root_.sub_self]; decide +kernel
  have hbig : m * (7 / 50) ≤ |a - b| → m / 8 ≤ |rndQ (a - b)| := by
    intro h
    have h1 := abs_sub_abs_le_abs_sub (a - b) (rndQ (a - b))
    rw [_root_.abs_sub_comm (a - b) (rndQ (a - b))] at h1
    have e3 := err_pow (a - b)
    norm_num at e3
    linarith
  have D0 := _root_.abs_nonneg (rndQ (a - b))
  clear e hq
  generalize |rndQ (a - b)| = D at *
  have q0 : 0 ≤ D / m := _root_.div_nonneg D0 (_root_.le_of_lt m0)
  have q1 : D / m ≤ 64 := by rw [div_le_iff₀ m0]; linarith
  obtain ⟨hT, eT, T0, T1⟩ := rnd_between (by decide +kernel) (by decide +kernel) q0 q1
  have Tz : D = 0 → rndQ (D / m) = 0 := by
    rintro rfl
    rw [zero_div]; decide +kernel
  have Tb : m / 8 ≤ D → 1 / 8 ≤ rndQ (D / m) := by
    intro h
    exact le_rndQ_of_onGrid (by decide +kernel) (by rw [le_div_iff₀ m0]; linarith)
  rw [eT, one_def, add_fin]
  clear eT
  generalize rndQ (D / m) = T at *
  obtain ⟨hU, eU, U0, U1⟩ := rnd_between (x := 1 + T) (a := 1) (b := 65) (by decide +kernel) (by decide +kernel)
    (by linarith) (by linarith)
  have Uz : T = 0 → rndQ (1 + T) = 1 := by
    rintro rfl
    decide +kernel
  have Ub : 1 / 8 ≤ T → 9 / 8 ≤ rndQ (1 + T) := by
    intro h
    exact le_rndQ_of_onGrid (by decide +kernel) (by linarith)
  rw [eU, div_fin (by linarith)]
  clear eU
  generalize rndQ (1 + T) = U at *
  have r0 : 0 ≤ 1 / U := _root_.div_nonneg (by norm_num) (by linarith)
  have r1 : 1 / U ≤ 1 := by rw [div_le_iff₀ (by linarith)]; linarith
  obtain ⟨hs, es, s0, s1⟩ := rnd_between (by decide +kernel) (by decide +kernel) r0 r1
  refine ⟨_, hs, es, s0, s1, ?_, ?_⟩
  · intro hab
    rw [Uz (Tz (hz hab))]
    decide +kernel
  · intro h
    refine rndQ_le_of_onGrid (by decide +kernel) ?_
    have := Ub (Tb (hbig h))
    rw [div_le_iff₀ (by linarith)]; linarith

/-- sums of numbers from [0,1] -/
theorem unit_sum : ∀ l : List F32, (∀ x ∈ l, ∃ s hs, x = fin s hs ∧ 0 ≤ s ∧ s ≤ 1) → l.length ≤ 2 ^ 24 →
    ∃ S hS, F32.sum l = fin S hS ∧ 0 ≤ S ∧ S ≤ l.length ∧ ((∀ x ∈ l, x = 1) → S = l.length) := by
  intro l
  induction l using List.reverseRecOn with
  | nil => intro _ _; exact ⟨0, _, zero_def, _root_.le_refl _, by simp, by simp⟩
  | append_singleton l a ih =>
    intro h hl
    rw [List.length_append, List.length_singleton] at hl
    obtain ⟨S, hS, e, S0, S1, S2⟩ := ih (fun x hx => h x (by simp [hx])) (by omega)
    obtain ⟨s, hs, rfl, s0, s1⟩ := h a (by simp)
    have esum : F32.sum (l ++ [fin s hs]) = F32.sum l + fin s hs := by simp [F32.sum, List.foldl_append]
    rw [esum, e, add_fin]
    obtain ⟨hR, eR, R0, R1⟩ := rnd_between (x := S + s) (a := 0) (b := ((l.length + 1 : ℕ) : ℚ)) (by decide +kernel)
      (grid_nat hl) (by linarith) (by push_cast; linarith)
    refine ⟨_, hR, eR, R0, by simpa using R1, ?_⟩
    intro h1
    have e1 := S2 (fun x hx => h1 x (by simp [hx]))
    have e2 : s = 1 := by
      have := h1 (fin s hs) (by simp)
      rw [one_def] at this
      injection this
    simp only [List.length_append, List.length_singleton]
    exact _root_.le_antisymm R1 (le_rndQ_of_onGrid (grid_nat hl).1 (by push_cast; linarith))

/-- the score as a function of the average similarity and of the regularity -/
def barScore (a x : F32) : F32 := F32.min (a * 0.7 + x) 1

theorem barScore_fin {A X : ℚ} {hA hX} (A0 : 0 ≤ A) (A1 : A ≤ 1) (X0 : 0 ≤ X) (X1 : X ≤ 3001 / 10000) :
    ∃ R hR, fin A hA * 0.7 + fin X hX = fin R hR ∧ R = rndQ (rndQ (A * (0.7 : F32).val) + X) := by
  obtain ⟨q, hq, e7, ev, l7, u7⟩ : ∃ (q : ℚ) (hq : OnGrid q ∧ |q| < pow2 128), (0.7 : F32) = fin q hq ∧ q = (0.7 : F32).val ∧
      0 ≤ q ∧ q ≤ 1 := ⟨(0.7 : F32).val, by decide +kernel, by decide +kernel, rfl, by decide +kernel, by decide +kernel⟩
  rw [← ev, e7, mul_fin]
  obtain ⟨h1, e1, a1, b1⟩ := rnd_between (x := A * q) (a := 0) (b := 1) (by decide +kernel) (by decide +kernel)
    (by nlinarith) (by nlinarith)
  rw [e1, add_fin]
  obtain ⟨h2, e2, a2, b2⟩ := rnd_between (x := rndQ (A * q) + X) (a := 0) (b := 2) (by decide +kernel) (by decide +kernel)
    (by linarith) (by linarith)
  exact ⟨_, h2, e2, rfl⟩

theorem min_one_mono {a b : ℚ} {ha hb} (h : a ≤ b) : F32.min (fin a ha) 1 ≤ F32.min (fin b hb) 1 := by
  rw [one_def]
  simp only [F32.min, isNaN, Bool.false_eq_true, if_false, fin_lt_fin]
  split_ifs <;> rw [fin_le_fin] <;> linarith

theorem barScore_mono {A X : ℚ} {hA hX} (A0 : 0 ≤ A) (A1 : A ≤ 1) (X0 : 0 ≤ X) (X1 : X ≤ 3001 / 10000) :
    barScore (fin A hA) (fin X hX) ≤ barScore 1 (fin X hX) := by
  obtain ⟨R, hR, e, r⟩ := barScore_fin (hA := hA) (hX := hX) A0 A1 X0 X1
  obtain ⟨R', hR', e', r'⟩ := barScore_fin (A := 1) (hA := grid_one) (hX := hX) (by norm_num) (_root_.le_refl _) X0 X1
  have l7 : (0 : ℚ) ≤ (0.7 : F32).val := by decide +kernel
  unfold barScore
  rw [one_def, e, e', ← one_def]
  apply min_one_mono
  rw [r, r']
  refine rndQ_mono ?_
  have := rndQ_mono (x := A * (0.7 : F32).val) (y := 1 * (0.7 : F32).val) (by nlinarith)
  linarith

theorem barScore_strict {A X : ℚ} {hA hX} (A0 : 0 ≤ A) (A1 : A ≤ 127 / 128) (X0 : 0 ≤ X) (X1 : X ≤ 3001 / 10000) :
    barScore (fin A hA) (fin X hX) < barScore 1 (fin X hX) := by
  obtain ⟨R, hR, e, r⟩ := barScore_fin (hA := hA) (hX := hX) A0 (by linarith) X0 X1
  obtain ⟨R', hR', e', r'⟩ := barScore_fin (A := 1) (hA := grid_one) (hX := hX) (by norm_num) (_root_.le_refl _) X0 X1
  have l7 : (699999 / 1000000 : ℚ) ≤ (0.7 : F32).val := by decide +kernel
  have u7 : (0.7 : F32).val ≤ 700001 / 1000000 := by decide +kernel
  have h7 : rndQ (1 * (0.7 : F32).val) = (0.7 : F32).val := by decide +kernel
  rw [h7] at r'
  have hP : rndQ (A * (0.7 : F32).val) ≤ 6946 / 10000 := by
    have hb : A * (0.7 : F32).val ≤ 694533 / 1000000 := by nlinarith
    have h0 : 0 ≤ A * (0.7 : F32).val := by nlinarith
    have e1 := err_pow (A * (0.7 : F32).val)
    rw [_root_.abs_of_nonneg h0] at e1
    have := (abs_le.1 e1).2
    norm_num at this ⊢; linarith
  have hP0 : 0 ≤ rndQ (A * (0.7 : F32).val) := rndQ_nonneg (by nlinarith)
  generalize rndQ (A * (0.7 : F32).val) = P at *
  generalize (0.7 : F32).val = q at *
  have e1 := err_pow (P + X)
  have e2 := err_pow (q + X)
  rw [_root_.abs_of_nonneg (show 0 ≤ P + X by linarith)] at e1
  rw [_root_.abs_of_nonneg (show 0 ≤ q + X by linarith)] at e2
  have b1 := (abs_le.1 e1).2
  have b2 := (abs_le.1 e2).1
  rw [← r] at b1
  rw [← r'] at b2
  norm_num at b1 b2
  unfold barScore
  rw [one_def, e, e']
  simp only [F32.min, isNaN, Bool.false_eq_true, if_false, fin_lt_fin]
  split_ifs <;> rw [fin_lt_fin] <;> linarith

theorem metre_sq {x : F32} (h : x ≠ nan) : 0 ≤ x * x := by
  rcases x with _ | s | ⟨v, hv⟩
  · exact absurd rfl h
  · cases s <;> decide +kernel
  · rw [mul_fin]; exact rnd_nonneg (mul_self_nonneg v)

/-- the regularity part of the score -/
theorem regular_range {cv : F32} (h : 0 ≤ cv) : ∃ X hX, (1 / (1 + cv) * 0.3 : F32) = fin X hX ∧ 0 ≤ X ∧ X ≤ 3001 / 10000 := by
  obtain ⟨q, g3, e3, l3, u3⟩ : ∃ (q : ℚ) (hq : OnGrid q ∧ |q| < pow2 128), (0.3 : F32) = fin q hq ∧ 0 ≤ q ∧ q ≤ 3001 / 10000 :=
    ⟨(0.3 : F32).val, by decide +kernel, by decide +kernel, by decide +kernel, by decide +kernel⟩
  have key : ∃ k hk, (1 / (1 + cv) : F32) = fin k hk ∧ 0 ≤ k ∧ k ≤ 1 := by
    have c1 : (1 : F32) ≤ 1 + cv := by
      rcases nonneg_cases h with rfl | ⟨v, hv, rfl, v0⟩
      · rw [one_def, fin_add_inf]; exact fin_le_pinf
      · rw [one_def, add_fin]; exact fin_le_rnd (by linarith)
    generalize 1 + cv = y at c1
    rcases y with _ | (_ | _) | ⟨v, hv⟩
    · simp at c1
    · exact ⟨0, _, by rw [one_def, fin_div_inf, zero_def], _root_.le_refl _, by norm_num⟩
    · rw [one_def] at c1; simp at c1
    · rw [one_def, fin_le_fin] at c1
      rw [one_def, div_fin (by linarith)]
      obtain ⟨h1, e1, a1, b1⟩ := rnd_between (x := 1 / v) (a := 0) (b := 1) (by decide +kernel) (by decide +kernel)
        (_root_.div_nonneg (by norm_num) (by linarith)) (by rw [div_le_iff₀ (by linarith)]; linarith)
      exact ⟨_, h1, e1, a1, b1⟩
  obtain ⟨k, hk, ek, k0, k1⟩ := key
  rw [ek, e3, mul_fin]
  obtain ⟨h1, e1, a1, b1⟩ := rnd_between (x := k * q) (a := 0) (b := q) (by decide +kernel) g3 (by nlinarith) (by nlinarith)
  exact ⟨_, h1, e1, a1, by linarith⟩

/-- the similarities of gaps `lag` apart -/
def simsAt (iv : List F32) (lag : ℕ) : List F32 :=
  (List.range (iv.length - lag)).map (fun i =>
    1 / (1 + (iv.getD i 0 - iv.getD (i + lag) 0).abs / (F32.sum iv / F32.ofNat iv.length)))

theorem score_form {G : ℚ} (hG : G ≤ 2) {iv : List F32} (hne : iv ≠ []) (hn : iv.length ≤ 4096) (h : GapsUpTo G iv) :
    ∃ X hX, 0 ≤ X ∧ X ≤ 3001 / 10000 ∧ ∀ lag, lag < iv.length →
      patternScore iv lag = barScore (F32.sum (simsAt iv lag) / F32.ofNat (iv.length - lag)) (fin X hX) := by
  obtain ⟨M, hM, eM, m10, _⟩ := metre_mean hG hne hn h
  have hm0 : (0 : F32) < fin M hM := by rw [zero_def, fin_lt_fin]; linarith
  have hfin : ∀ x ∈ iv, x.isFinite = true := by
    intro x hx
    obtain ⟨v, hv, rfl, _⟩ := h x hx
    rfl
  have hvar : 0 ≤ F32.sum (iv.map (fun x => (x - fin M hM) * (x - fin M hM))) / F32.ofNat iv.length := by
    refine Period.div_pos_nonneg (sum_nonneg ?_) ?_ (ofNat_finite (_root_.le_trans hn (by norm_num)))
    · intro y hy
      obtain ⟨x, hx, rfl⟩ := List.mem_map.1 hy
      exact metre_sq (sub_fin_ne_nan (hfin x hx) rfl)
    · rw [ofNat_exact (by omega), zero_def, fin_lt_fin]
      exact_mod_cast List.length_pos_iff.2 hne
  have hcv : 0 ≤ (if 1e-10 < fin M hM then F32.sqrt (F32.sum (iv.map (fun x => (x - fin M hM) * (x - fin M hM))) /
      F32.ofNat iv.length) / fin M hM else 1 : F32) := by
    split_ifs
    · exact Period.div_pos_nonneg (F32.sqrt_nonneg hvar) hm0 rfl
    · decide +kernel
  obtain ⟨X, hX, eX, X0, X1⟩ := regular_range hcv
  refine ⟨X, hX, X0, X1, ?_⟩
  intro lag hlag
  have hl : (simsAt iv lag).length = iv.length - lag := by simp [simsAt]
  unfold patternScore
  dsimp only
  rw [← sims_eq (fun a b => 1 / (1 + (a - b).abs / (F32.sum iv / F32.ofNat iv.length)))]
  change (if simsAt iv lag = [] then 0 else _) = _
  rw [if_neg (by intro hc; rw [hc] at hl; simp at hl; omega)]
  change F32.min (F32.sum (simsAt iv lag) / F32.ofNat (simsAt iv lag).length * 0.7 + _) 1 = _
  rw [hl, eM, eX]
  rfl

theorem gap_at {G : ℚ} {iv : List F32} (h : GapsUpTo G iv) {i : ℕ} (hi : i < iv.length) :
    ∃ v hv, iv.getD i 0 = fin v hv ∧ 1 / 8 ≤ v ∧ v ≤ G := by
  have e : iv.getD i 0 = iv[i] := by simp [hi]
  rw [e]
  exact h _ (List.getElem_mem hi)

/-- the average similarity is at most 1, and 1 for a rhythm that repeats after `lag` gaps -/
theorem avg_range {G : ℚ} (hG : G ≤ 2) {iv : List F32} (hn : iv.length ≤ 4096) (h : GapsUpTo G iv) {lag : ℕ}
    (hlag : lag < iv.length) :
    ∃ A hA, F32.sum (simsAt iv lag) / F32.ofNat (iv.length - lag) = fin A hA ∧ 0 ≤ A ∧ A ≤ 1 ∧
      (RepeatsAfter lag iv → fin A hA = 1) := by
  have hne : iv ≠ [] := by rintro rfl; simp at hlag
  obtain ⟨M, hM, eM, m10, _⟩ := metre_mean hG hne hn h
  have hl : (simsAt iv lag).length = iv.length - lag := by simp [simsAt]
  have hs : ∀ x ∈ simsAt iv lag, ∃ s hs, x = fin s hs ∧ 0 ≤ s ∧ s ≤ 1 ∧ (RepeatsAfter lag iv → x = 1) := by
    intro x hx
    obtain ⟨i, hi, rfl⟩ := List.mem_map.1 hx
    rw [List.mem_range] at hi
    obtain ⟨a, ha, ea, a0, a1⟩ := gap_at h (show i < iv.length by omega)
    obtain ⟨b, hb, eb, b0, b1⟩ := gap_at h (show i + lag < iv.length by omega)
    rw [eM, ea, eb]
    obtain ⟨s, hs, e, s0, s1, s2, _⟩ := sim_range (ha := ha) (hb := hb) (hm := hM) (by linarith)
      (by rw [_root_.abs_of_nonneg] <;> linarith) (by rw [_root_.abs_of_nonneg] <;> linarith) m10
    refine ⟨s, hs, e, s0, s1, ?_⟩
    intro hr
    have := hr i (by omega)
    rw [ea, eb] at this
    injection this with hab
    have s2' := s2 hab.symm
    subst s2'
    rw [e, one_def]
  obtain ⟨S, hS, eS, S0, S1, S2⟩ := unit_sum (simsAt iv lag)
    (fun x hx => by obtain ⟨s, hs, e, s0, s1, _⟩ := hs x hx; exact ⟨s, hs, e, s0, s1⟩) (by omega)
  rw [hl] at S1 S2
  have hk : 0 < iv.length - lag := by omega
  have hk2 : iv.length - lag ≤ 2 ^ 24 := by omega
  have hkq : (0 : ℚ) < ((iv.length - lag : ℕ) : ℚ) := by exact_mod_cast hk
  rw [eS, ofNat_exact hk2, div_fin (_root_.ne_of_gt hkq)]
  obtain ⟨hA, eA, A0, A1⟩ := rnd_between (x := S / ((iv.length - lag : ℕ) : ℚ)) (a := 0) (b := 1) (by decide +kernel) (by decide +kernel)
    (_root_.div_nonneg S0 (_root_.le_of_lt hkq)) (by rw [div_le_iff₀ hkq]; linarith)
  refine ⟨_, hA, eA, A0, A1, ?_⟩
  intro hr
  have := S2 (fun x hx => by obtain ⟨s, hs, e, s0, s1, h1⟩ := hs x hx; exact h1 hr)
  rw [← eA, this, _root_.div_self (_root_.ne_of_gt hkq), rnd_one]

/-- one of any four consecutive terms is small -/
theorem sum_four {f : ℕ → ℚ} {r : ℕ} (hr : r < 4) (n : ℕ) (h1 : ∀ i < n, f i ≤ 1) (h2 : ∀ i < n, i % 4 = r → f i ≤ 57 / 64) :
    ((List.range n).map f).sum ≤ n - 7 / 64 * ((n / 4 : ℕ) : ℚ) := by
  induction n using Nat.strong_induction_on with
  | _ n ih =>
    rcases n with _ | _ | _ | _ | n
    · simp
    · have := h1 0 (by omega)
      simp; linarith
    · have := h1 0 (by omega); have := h1 1 (by omega)
      simp [List.sum_range_succ]; linarith
    · have := h1 0 (by omega); have := h1 1 (by omega); have := h1 2 (by omega)
      simp [List.sum_range_succ]; linarith
    · have i0 := ih n (by omega) (fun i hi => h1 i (by omega)) (fun i hi => h2 i (by omega))
      have e : (n + 1 + 1 + 1 + 1) / 4 = n / 4 + 1 := by omega
      rw [e, List.sum_range_succ, List.sum_range_succ, List.sum_range_succ, List.sum_range_succ]
      have a0 := h1 n (by omega)
      have a1 := h1 (n + 1) (by omega)
      have a2 := h1 (n + 1 + 1) (by omega)
      have a3 := h1 (n + 1 + 1 + 1) (by omega)
      push_cast
      have : n % 4 = r ∨ (n + 1) % 4 = r ∨ (n + 1 + 1) % 4 = r ∨ (n + 1 + 1 + 1) % 4 = r := by omega
      rcases this with hc | hc | hc | hc
      · have := h2 n (by omega) hc; linarith
      · have := h2 (n + 1) (by omega) hc; linarith
      · have := h2 (n + 1 + 1) (by omega) hc; linarith
      · have := h2 (n + 1 + 1 + 1) (by omega) hc; linarith

/-- the average similarity is well below 1 when one gap in four differs clearly from the gap `lag` later -/
theorem avg_small {G : ℚ} (hG : G ≤ 2) {iv : List F32} (hn : iv.length ≤ 4096) (h : GapsUpTo G iv) {lag r : ℕ}
    (hlag : lag + 4 ≤ iv.length) (hr : r < 4)
    (hd : ∀ i, i % 4 = r → i + lag < iv.length → G / 6 ≤ |(iv.getD i 0).val - (iv.getD (i + lag) 0).val|) :
    ∃ A hA, F32.sum (simsAt iv lag) / F32.ofNat (iv.length - lag) = fin A hA ∧ 0 ≤ A ∧ A ≤ 127 / 128 := by
  have hne : iv ≠ [] := by rintro rfl; simp at hlag
  obtain ⟨M, hM, eM, m10, mG⟩ := metre_mean hG hne hn h
  have hl : (simsAt iv lag).length = iv.length - lag := by simp [simsAt]
  have hs : ∀ i < iv.length - lag, ∃ s hs, (1 / (1 + (iv.getD i 0 - iv.getD (i + lag) 0).abs / (F32.sum iv / F32.ofNat iv.length)) : F32) =
      fin s hs ∧ 0 ≤ s ∧ s ≤ 1 ∧ (i % 4 = r → s ≤ 57 / 64) := by
    intro i hi
    have hd' := hd i
    obtain ⟨a, ha, ea, a0, a1⟩ := gap_at h (show i < iv.length by omega)
    obtain ⟨b, hb, eb, b0, b1⟩ := gap_at h (show i + lag < iv.length by omega)
    rw [eM, ea, eb]
    rw [ea, eb] at hd'
    obtain ⟨s, hs, e, s0, s1, _, s3⟩ := sim_range (ha := ha) (hb := hb) (hm := hM) (by linarith)
      (by rw [_root_.abs_of_nonneg] <;> linarith) (by rw [_root_.abs_of_nonneg] <;> linarith) m10
    refine ⟨s, hs, e, s0, s1, ?_⟩
    intro hm
    refine s3 ?_
    have := hd' hm (by omega)
    change G / 6 ≤ |a - b| at this
    linarith
  have hv : ∀ x ∈ simsAt iv lag, x.isFinite = true ∧ 0 ≤ x.val := by
    intro x hx
    obtain ⟨i, hi, rfl⟩ := List.mem_map.1 hx
    obtain ⟨s, hs, e, s0, _⟩ := hs i (List.mem_range.1 hi)
    rw [e]; exact ⟨rfl, s0⟩
  have hsum : ((simsAt iv lag).map F32.val).sum ≤ ((iv.length - lag : ℕ) : ℚ) - 7 / 64 * (((iv.length - lag) / 4 : ℕ) : ℚ) := by
    unfold simsAt
    rw [List.map_map]
    refine sum_four hr _ ?_ ?_
    · intro i hi
      obtain ⟨s, hs, e, _, s1, _⟩ := hs i hi
      simp only [Function.comp_apply, e]; exact s1
    · intro i hi hm
      obtain ⟨s, hs, e, _, _, s2⟩ := hs i hi
      simp only [Function.comp_apply, e]; exact s2 hm
  have h0 : 0 ≤ ((simsAt iv lag).map F32.val).sum := by
    apply List.sum_nonneg
    intro y hy
    obtain ⟨x, hx, rfl⟩ := List.mem_map.1 hy
    exact (hv x hx).2
  have hk4 : 4 ≤ iv.length - lag := by omega
  have hk2 : iv.length - lag ≤ 4096 := by omega
  generalize iv.length - lag = k at *
  have h7 : (k : ℚ) ≤ 7 * ((k / 4 : ℕ) : ℚ) := by exact_mod_cast (show k ≤ 7 * (k / 4) by omega)
  have hq4 : (4 : ℚ) ≤ k := by exact_mod_cast hk4
  have hq2 : (k : ℚ) ≤ 4096 := by exact_mod_cast hk2
  have hQ : ((simsAt iv lag).map F32.val).sum ≤ k * (63 / 64) := by linarith
  obtain ⟨S, hS, eS, S0, bS⟩ := sum_rel (simsAt iv lag) hv (_root_.le_trans hQ (by norm_num; linarith)) (by omega)
  rw [hl] at bS
  have b := (abs_le.1 bS).2
  rw [eS, ofNat_exact (by omega), div_fin (by linarith)]
  generalize ((simsAt iv lag).map F32.val).sum = Q at *
  have hA : Q * (k / 2 ^ 23) ≤ Q * (1 / 2048) := _root_.mul_le_mul_of_nonneg_left (by norm_num; linarith) h0
  have hB : (k : ℚ) / 2 ^ 149 ≤ k * (1 / 10 ^ 6) := by norm_num; linarith
  obtain ⟨hA', eA, A0, A1⟩ := rnd_between (x := S / (k : ℚ)) (a := 0) (b := 127 / 128) (by decide +kernel) (by decide +kernel)
    (_root_.div_nonneg S0 (by linarith)) (by rw [div_le_iff₀ (by linarith)]; norm_num at hA hB ⊢; linarith)
  exact ⟨_, hA', eA, A0, A1⟩

/-- **C144 (partial), six**: a rhythm that repeats every six beats is reported as 6/8. -/
theorem C144_six_partial (beats : List F32) (bpm : F32) (G : ℚ) (hb : ¬ bpm ≤ 1e-10) (h8 : 8 ≤ beats.length)
    (hG : G ≤ 2) (hn : (gaps beats).length ≤ 4096) (h7 : 7 ≤ (gaps beats).length) (hg : GapsUpTo G (gaps beats))
    (hr : RepeatsAfter 6 (gaps beats)) : ∃ c, timeSignature beats bpm = .ok (.sixEight, c) := by
  have hne : gaps beats ≠ [] := by intro h; rw [h] at h7; simp at h7
  obtain ⟨X, hX, X0, X1, hs⟩ := score_form hG hne hn hg
  have h6 : patternScore (gaps beats) 6 = barScore 1 (fin X hX) := by
    obtain ⟨A, hA, e, _, _, h1⟩ := avg_range hG hn hg (lag := 6) (by omega)
    rw [hs 6 (by omega), e, h1 hr]
  have hle : ∀ lag, lag < 7 → patternScore (gaps beats) lag ≤ patternScore (gaps beats) 6 := by
    intro lag hl
    obtain ⟨A, hA, e, A0, A1, _⟩ := avg_range hG hn hg (lag := lag) (by omega)
    rw [h6, hs lag (by omega), e]
    exact barScore_mono A0 A1 X0 X1
  rw [C36_choice beats bpm h8 hb hne]
  dsimp only
  rw [if_pos ⟨hle 4 (by omega), hle 3 (by omega)⟩]
  exact ⟨_, rfl⟩

/-- **C144 violated**: a rhythm that repeats every three beats (a waltz with a drawn-out first beat, say) is never reported as 3/4: it
repeats every six beats as well, the two hypotheses tie, and the later one, 6/8, is taken. -/
theorem C144_violated (beats : List F32) (bpm : F32) (G : ℚ) (hb : ¬ bpm ≤ 1e-10) (h8 : 8 ≤ beats.length)
    (hG : G ≤ 2) (hn : (gaps beats).length ≤ 4096) (h7 : 7 ≤ (gaps beats).length) (hg : GapsUpTo G (gaps beats))
    (hr : RepeatsAfter 3 (gaps beats)) : ∃ c, timeSignature beats bpm = .ok (.sixEight, c) := by
  refine C144_six_partial beats bpm G hb h8 hG hn h7 hg ?_
  intro i hi
  rw [show i + 6 = (i + 3) + 3 by omega, hr (i + 3) (by omega), hr i (by omega)]

/-- **C144 (partial), four**: a rhythm that repeats every four beats, and in which some gap differs by a sixth of the longest gap from the
gap before it and some gap from the gap two later, is reported as 4/4. -/
theorem C144_four_partial (beats : List F32) (bpm : F32) (G : ℚ) (hb : ¬ bpm ≤ 1e-10) (h8 : 8 ≤ beats.length)
    (hG : G ≤ 2) (hn : (gaps beats).length ≤ 4096) (h10 : 10 ≤ (gaps beats).length) (hg : GapsUpTo G (gaps beats))
    (hr : RepeatsAfter 4 (gaps beats))
    (h3 : ∃ r < 4, G / 6 ≤ |((gaps beats).getD r 0).val - ((gaps beats).getD ((r + 3) % 4) 0).val|)
    (h2 : ∃ r < 4, G / 6 ≤ |((gaps beats).getD r 0).val - ((gaps beats).getD ((r + 2) % 4) 0).val|) :
    ∃ c, timeSignature beats bpm = .ok (.fourFour, c) := by
  have hne : gaps beats ≠ [] := by intro h; rw [h] at h10; simp at h10
  have hmod := repeats_mod (by norm_num) hr
  obtain ⟨X, hX, X0, X1, hs⟩ := score_form hG hne hn hg
  have h4 : patternScore (gaps beats) 4 = barScore 1 (fin X hX) := by
    obtain ⟨A, hA, e, _, _, h1⟩ := avg_range hG hn hg (lag := 4) (by omega)
    rw [hs 4 (by omega), e, h1 hr]
  have hlt : ∀ lag, lag ≤ 6 → (∃ r < 4, G / 6 ≤ |((gaps beats).getD r 0).val - ((gaps beats).getD ((r + lag) % 4) 0).val|) →
      patternScore (gaps beats) lag < patternScore (gaps beats) 4 := by
    rintro lag hl ⟨r, hr4, hd⟩
    obtain ⟨A, hA, e, A0, A1⟩ := avg_small hG hn hg (lag := lag) (r := r) (by omega) hr4 (by
      intro i hi hi2
      rw [hmod i (by omega), hmod (i + lag) hi2, hi, Nat.add_mod, hi, Nat.add_mod_mod]
      exact hd)
    rw [h4, hs lag (by omega), e]
    exact barScore_strict A0 A1 X0 X1
  have l3 := hlt 3 (by omega) h3
  have l6 := hlt 6 (by omega) (by
    obtain ⟨r, hr4, hd⟩ := h2
    exact ⟨r, hr4, by rwa [show (r + 6) % 4 = (r + 2) % 4 by omega]⟩)
  rw [C36_choice beats bpm h8 hb hne]
  dsimp only
  rw [if_neg (fun hc => absurd l6 (not_lt_of_le hc.1)), if_neg (fun hc => absurd l3 (not_lt_of_le hc))]
  exact ⟨_, rfl⟩

/-- non-vacuity of `C144_four_partial` and `C144_violated`: bars of four beats with a longer first gap, and bars of three -/
example : gaps [0, 1, 1.5, 2, 2.5, 3.5, 4, 4.5, 5, 6, (6.5 : F32)] = [1, 0.5, 0.5, 0.5, 1, 0.5, 0.5, 0.5, 1, 0.5] ∧
    (match timeSignature [0, 1, 1.5, 2, 2.5, 3.5, 4, 4.5, 5, 6, 6.5] 100 with | .ok (s, _) => some s | .error _ => none) = some .fourFour ∧
    (1 : ℚ) / 6 ≤ |((1 : F32)).val - (0.5 : F32).val| := by decide +kernel
example : gaps [0, 1, 1.5, 2, 3, 3.5, 4, 5, (5.5 : F32)] = [1, 0.5, 0.5, 1, 0.5, 0.5, 1, 0.5] ∧
    (match timeSignature [0, 1, 1.5, 2, 3, 3.5, 4, 5, 5.5] 90 with | .ok (s, _) => some s | .error _ => none) = some .sixEight := by
  decide +kernel
example : RepeatsAfter 4 [1, 0.5, 0.5, 0.5, 1, 0.5, 0.5, 0.5, 1, (0.5 : F32)] ∧ RepeatsAfter 3 [1, 0.5, 0.5, 1, 0.5, 0.5, 1, (0.5 : F32)] ∧
    GapsUpTo 1 [1, (0.5 : F32)] := by
  refine ⟨?_, ?_, ?_⟩
  · intro i hi
    have : i < 6 := by simp at hi; omega
    interval_cases i <;> rfl
  · intro i hi
    have : i < 5 := by simp at hi; omega
    interval_cases i <;> rfl
  · intro x hx
    simp only [List.mem_cons, List.not_mem_nil, or_false] at hx
    rcases hx with rfl | rfl
    · exact ⟨1, by decide +kernel, by decide +kernel, by norm_num, by norm_num⟩
    · exact ⟨1 / 2, by decide +kernel, by decide +kernel, by norm_num, by norm_num⟩

end Verif.Props
