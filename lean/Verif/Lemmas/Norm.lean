/-
L2 normalisation in f32: the quotient by the computed norm stays in `[0, 1]`, and the squares of the
quotients add up to one up to a small error.
-/
import Verif.Model.Chroma
import Verif.F32.SqrtSq
import Verif.F32.More
import Verif.F32.Bounds
import Verif.Props.Grid
import Mathlib.Tactic.Linarith
import Mathlib.Tactic.Positivity
import Mathlib.Tactic.FieldSimp

namespace Verif.Chroma
open Verif F32

/-- finite and not negative -/
def Mags (c : List F32) : Prop := ∀ x ∈ c, 0 ≤ x ∧ x.isFinite = true

theorem sqs_nonneg {c : List F32} (h : Mags c) : ∀ y ∈ c.map (fun x => x * x), 0 ≤ y := by
  intro y hy
  rw [List.mem_map] at hy
  obtain ⟨x, hx, rfl⟩ := hy
  obtain ⟨v, hv, rfl⟩ := isFinite_iff.1 (h x hx).2
  rw [mul_fin]
  exact rnd_nonneg (mul_self_nonneg v)

theorem norm2_nonneg {c : List F32} (h : Mags c) : 0 ≤ norm2 c := sqrt_nonneg (sum_nonneg (sqs_nonneg h))

/-- every entry is below the norm, unless it is tiny -/
theorem le_norm2 {c : List F32} (h : Mags c) {x : F32} (hx : x ∈ c) : x < rnd (pow2 (-60)) ∨ x ≤ norm2 c := by
  by_cases hlt : x < rnd (pow2 (-60))
  · exact Or.inl hlt
  · right
    have hge : rnd (pow2 (-60)) ≤ x :=
      F32.le_of_not_lt (by decide +kernel) (ne_nan_of_isFinite (h x hx).2) hlt
    refine F32.le_trans (le_sqrt_sq hge) ?_
    have hs := sqs_nonneg h
    have hm : x * x ∈ c.map (fun x => x * x) := List.mem_map.2 ⟨x, hx, rfl⟩
    exact sqrt_mono (hs _ hm) (le_sum hs hm)

theorem tiny_le_eps : rnd (pow2 (-60)) ≤ EPS := by decide +kernel

/-- dividing by the norm gives values in `[0, 1]` -/
theorem quot_unit {c : List F32} (h : Mags c) (hn : EPS < norm2 c) {x : F32} (hx : x ∈ c) :
    0 ≤ x / norm2 c ∧ x / norm2 c ≤ 1 := by
  have hpos : 0 < norm2 c := F32.lt_trans (by decide +kernel) hn
  have hle : x ≤ norm2 c := by
    rcases le_norm2 h hx with h1 | h1
    · exact F32.le_of_lt (F32.lt_trans (F32.lt_of_lt_of_le h1 tiny_le_eps) hn)
    · exact h1
  obtain ⟨hx0, hxf⟩ := h x hx
  rcases nonneg_cases (norm2_nonneg h) with e | ⟨v, hv, e, _⟩
  · rw [e]
    obtain ⟨w, hw, rfl⟩ := isFinite_iff.1 hxf
    show 0 ≤ rnd 0 ∧ rnd 0 ≤ 1
    decide +kernel
  · exact F32.div_le_one hx0 hle hpos (by rw [e]; rfl)

/-- `unitOrKeep` returns values in `[0, 1]` -/
theorem unitOrKeep_range {c : List F32} (h : Mags c) : ∀ y ∈ unitOrKeep c, 0 ≤ y ∧ y ≤ 1 := by
  intro y hy
  unfold unitOrKeep at hy
  dsimp only at hy
  split_ifs at hy with hn
  · rw [List.mem_map] at hy
    obtain ⟨x, hx, rfl⟩ := hy
    exact quot_unit h hn hx
  · refine ⟨(h y hy).1, ?_⟩
    have h1 : EPS ≤ (1 : F32) := by decide +kernel
    rcases le_norm2 h hy with h2 | h2
    · exact F32.le_trans (F32.le_of_lt h2) (F32.le_trans tiny_le_eps h1)
    · exact F32.le_trans h2 (F32.le_trans
        (F32.le_of_not_lt (ne_nan_right (norm2_nonneg h)) (by decide +kernel) hn) h1)

@[simp] theorem length_unitOrKeep (c : List F32) : (unitOrKeep c).length = c.length := by
  unfold unitOrKeep; dsimp only; split_ifs <;> simp

/-! ### The squares of the quotients add up to one -/

/-- Sum of the squares, exactly. -/
def sqSum (c : List F32) : ℚ := (c.map (fun x => x.val * x.val)).sum

theorem sqSum_nonneg (c : List F32) : 0 ≤ sqSum c := by
  unfold sqSum
  apply List.sum_nonneg
  intro y hy
  rw [List.mem_map] at hy
  obtain ⟨x, _, rfl⟩ := hy
  exact mul_self_nonneg _

theorem sqSum_append (l : List F32) (x : F32) : sqSum (l ++ [x]) = sqSum l + x.val * x.val := by
  simp [sqSum]

theorem sqStep {T S t s r k : ℚ} (hT : 0 ≤ T) (ht : 0 ≤ t) (hk : 0 ≤ k) (hk' : k ≤ 2 ^ 20)
    (h1 : |S - T| ≤ T * ((k + 1) / 2 ^ 23) + 4 * k * eta) (h2 : |s - t| ≤ t * eps + eta)
    (h3 : |r - (S + s)| ≤ (S + s) * eps + eta) :
    |r - (T + t)| ≤ (T + t) * ((k + 1 + 1) / 2 ^ 23) + 4 * (k + 1) * eta := by
  have e1 : r - (T + t) = (r - (S + s)) + ((S - T) + (s - t)) := by ring
  have a1 := abs_add_le (r - (S + s)) ((S - T) + (s - t))
  have a2 := abs_add_le (S - T) (s - t)
  rw [e1]
  have b1 := (abs_le.1 h1).2
  have b2 := (abs_le.1 h2).2
  have heps : eps = 1 / 2 ^ 24 := rfl
  have heta : 0 < eta := by unfold eta; norm_num
  have hkd : (k + 1) / 2 ^ 23 ≤ 1 := by
    rw [div_le_one₀ (by positivity)]; linarith
  have c1 : S + s ≤ T * 2 + t * 2 + (4 * k + 1) * eta := by
    have d1 : T * ((k + 1) / 2 ^ 23) ≤ T * 1 := _root_.mul_le_mul_of_nonneg_left hkd hT
    have d2 : t * eps ≤ t * 1 := _root_.mul_le_mul_of_nonneg_left (by rw [heps]; norm_num) ht
    linarith
  have c2 : S + s ≤ T * (1 + (k + 1) / 2 ^ 23) + t * (1 + eps) + (4 * k + 1) * eta := by linarith
  have c3 : (S + s) * eps ≤ (T * (1 + (k + 1) / 2 ^ 23) + t * (1 + eps) + (4 * k + 1) * eta) * eps :=
    _root_.mul_le_mul_of_nonneg_right c2 (by rw [heps]; norm_num)
  have c4 : T * (1 + (k + 1) / 2 ^ 23) * eps ≤ T * (1 / 2 ^ 23) := by
    rw [_root_.mul_assoc]
    apply _root_.mul_le_mul_of_nonneg_left _ hT
    rw [heps]
    have : (1 + (k + 1) / 2 ^ 23) * (1 / 2 ^ 24) ≤ 2 * (1 / 2 ^ 24 : ℚ) :=
      _root_.mul_le_mul_of_nonneg_right (by linarith) (by norm_num)
    linarith
  have c5 : t * eps + t * (1 + eps) * eps ≤ t * ((k + 1 + 1) / 2 ^ 23) := by
    have : eps + (1 + eps) * eps ≤ (k + 1 + 1) / 2 ^ 23 := by
      rw [heps, le_div_iff₀ (by norm_num)]
      have : (1 / 2 ^ 24 + (1 + 1 / 2 ^ 24) * (1 / 2 ^ 24) : ℚ) * 2 ^ 23 ≤ 2 := by norm_num
      linarith
    calc t * eps + t * (1 + eps) * eps = t * (eps + (1 + eps) * eps) := by ring
      _ ≤ _ := _root_.mul_le_mul_of_nonneg_left this ht
  have c6 : (4 * k + 1) * eta * eps ≤ eta := by
    have : (4 * k + 1) * eps ≤ 1 := by
      rw [heps]
      have : (4 * k + 1) * (1 / 2 ^ 24) ≤ (4 * 2 ^ 20 + 1) * (1 / 2 ^ 24 : ℚ) :=
        _root_.mul_le_mul_of_nonneg_right (by linarith) (by norm_num)
      have h2 : ((4 * 2 ^ 20 + 1) * (1 / 2 ^ 24) : ℚ) ≤ 1 := by norm_num
      linarith
    calc (4 * k + 1) * eta * eps = (4 * k + 1) * eps * eta := by ring
      _ ≤ 1 * eta := _root_.mul_le_mul_of_nonneg_right this heta.le
      _ = eta := one_mul _
  have c7 : T * ((k + 1) / 2 ^ 23) + T * (1 / 2 ^ 23) = T * ((k + 1 + 1) / 2 ^ 23) := by ring
  have c8 : (T * (1 + (k + 1) / 2 ^ 23) + t * (1 + eps) + (4 * k + 1) * eta) * eps =
      T * (1 + (k + 1) / 2 ^ 23) * eps + t * (1 + eps) * eps + (4 * k + 1) * eta * eps := by ring
  have c9 : (T + t) * ((k + 1 + 1) / 2 ^ 23) = T * ((k + 1 + 1) / 2 ^ 23) + t * ((k + 1 + 1) / 2 ^ 23) := by ring
  rw [c9]
  linarith

theorem rnd_finite {q : ℚ} (h : (rnd q).isFinite = true) : |rndQ q| < pow2 128 := by
  unfold rnd at h
  split_ifs at h with h1 h2
  · simp [isFinite] at h
  · simp [isFinite] at h
  · exact abs_lt.2 ⟨not_le.1 h2, not_le.1 h1⟩

theorem sqsum_err : ∀ c : List F32, Mags c → c.length ≤ 2 ^ 20 →
    (F32.sum (c.map (fun x => x * x))).isFinite = true →
    ∃ S hS, F32.sum (c.map (fun x => x * x)) = fin S hS ∧ 0 ≤ S ∧
      |S - sqSum c| ≤ sqSum c * (((c.length : ℚ) + 1) / 2 ^ 23) + 4 * c.length * eta := by
  intro c
  induction c using List.reverseRecOn with
  | nil =>
    intro _ _ _
    exact ⟨0, grid_zero, by decide +kernel, _root_.le_refl _, by simp [sqSum]⟩
  | append_singleton l x ih =>
    intro h hl hf
    have hl' : Mags l := fun y hy => h y (by simp [hy])
    rw [List.length_append, List.length_singleton] at hl
    obtain ⟨v, hv, rfl⟩ := isFinite_iff.1 (h x (by simp)).2
    have hsum : F32.sum ((l ++ [fin v hv]).map (fun x => x * x)) = F32.sum (l.map (fun x => x * x)) + fin v hv * fin v hv := by
      unfold F32.sum
      rw [List.map_append, List.foldl_append]; rfl
    rw [hsum, mul_fin] at hf
    have hs0 : 0 ≤ F32.sum (l.map (fun x => x * x)) := sum_nonneg (sqs_nonneg hl')
    have hv0 : 0 ≤ rnd (v * v) := rnd_nonneg (mul_self_nonneg v)
    have hfl : (F32.sum (l.map (fun x => x * x))).isFinite = true ∧ (rnd (v * v)).isFinite = true := by
      rcases nonneg_cases hs0 with e | ⟨a, ha, e, _⟩ <;> rcases nonneg_cases hv0 with e' | ⟨b, hb, e', _⟩ <;>
        rw [e, e'] at hf ⊢
      · simp [inf_add_inf, isFinite] at hf
      · simp [inf_add_fin, isFinite] at hf
      · simp [fin_add_inf, isFinite] at hf
      · exact ⟨rfl, rfl⟩
    obtain ⟨S, hS, h1, h2, h3⟩ := ih hl' (by omega) hfl.1
    have hr := rnd_of_lt (rnd_finite hfl.2)
    rw [h1, hr, add_fin] at hf
    have hlt := rnd_finite hf
    refine ⟨rndQ (S + rndQ (v * v)), ⟨onGrid_rndQ _, hlt⟩, ?_, ?_, ?_⟩
    · rw [hsum, mul_fin, h1, hr, add_fin, rnd_of_lt hlt]
    · exact rndQ_nonneg (add_nonneg h2 (rndQ_nonneg (mul_self_nonneg v)))
    · rw [sqSum_append, List.length_append, List.length_singleton]
      push_cast
      have e2 := Props.rndQ_err (v * v)
      rw [abs_of_nonneg (mul_self_nonneg v)] at e2
      have e3 := Props.rndQ_err (S + rndQ (v * v))
      rw [abs_of_nonneg (add_nonneg h2 (rndQ_nonneg (mul_self_nonneg v)))] at e3
      have hl20 : ((l.length : ℕ) : ℚ) ≤ 2 ^ 20 := by
        have : l.length ≤ 2 ^ 20 := by omega
        exact_mod_cast this
      exact sqStep (sqSum_nonneg l) (mul_self_nonneg v) (by positivity) hl20 h3 e2 e3

/-- accuracy of `sqrtQ`: the square of the root is within `2^-100` relatively -/
theorem sqrtQ_sq {v : ℚ} (h : 1 / 2 ^ 80 ≤ v) : |sqrtQ v * sqrtQ v - v| ≤ v / 2 ^ 60 := by
  unfold sqrtQ
  dsimp only
  have h400 : ((2 ^ 400 : ℕ) : ℚ) = 2 ^ 400 := by rw [Nat.cast_pow, Nat.cast_ofNat]
  have h201 : ((2 ^ 201 : ℕ) : ℚ) = 2 ^ 201 := by rw [Nat.cast_pow, Nat.cast_ofNat]
  rw [h400, h201]
  have hv0 : 0 < v := _root_.lt_of_lt_of_le (by positivity) h
  set V : ℚ := v * 2 ^ 400 with hV
  have hV0 : 0 < V := by positivity
  have hVb : (2 : ℚ) ^ 320 ≤ V := by
    rw [hV]
    have : (1 : ℚ) / 2 ^ 80 * 2 ^ 400 ≤ v * 2 ^ 400 := _root_.mul_le_mul_of_nonneg_right h (by positivity)
    refine le_trans (le_of_eq ?_) this
    rw [show (400 : ℕ) = 80 + 320 by norm_num, pow_add, ← _root_.mul_assoc]
    norm_num
  set n : ℕ := ⌊V⌋.toNat with hn
  have hnV : (n : ℚ) ≤ V ∧ V < n + 1 := by
    have h1 : ((n : ℕ) : ℤ) = ⌊V⌋ := Int.toNat_of_nonneg (Int.floor_nonneg.2 hV0.le)
    have h2 : ((n : ℕ) : ℚ) = ((⌊V⌋ : ℤ) : ℚ) := by rw [← h1]; simp
    rw [h2]
    exact ⟨Int.floor_le V, Int.lt_floor_add_one V⟩
  set s := n.sqrt with hs
  have hs1 : s * s ≤ n := Nat.sqrt_le n
  have hs2 : n < (s + 1) * (s + 1) := by
    have := Nat.lt_succ_sqrt n
    exact this
  have hb : ∃ b : ℚ, ((2 * s + (if s * s = n then 0 else 1) : ℕ) : ℚ) = 2 * s + b ∧ 0 ≤ b ∧ b ≤ 1 := by
    split_ifs
    · exact ⟨0, by push_cast; ring, by norm_num, by norm_num⟩
    · exact ⟨1, by push_cast; ring, by norm_num, by norm_num⟩
  obtain ⟨b, hbe, hb0, hb1⟩ := hb
  rw [hbe]
  have hs1q : (s : ℚ) * s ≤ V := by
    have : ((s * s : ℕ) : ℚ) ≤ n := by exact_mod_cast hs1
    push_cast at this
    linarith [hnV.1]
  have hs2q : V < ((s : ℚ) + 1) * (s + 1) := by
    have : ((n + 1 : ℕ) : ℚ) ≤ (((s + 1) * (s + 1) : ℕ) : ℚ) := by exact_mod_cast hs2
    push_cast at this
    linarith [hnV.2]
  have hv : v = V / 2 ^ 400 := by rw [hV, mul_div_assoc, div_self (by positivity), mul_one]
  clear_value V s
  have hq0 : (0 : ℚ) ≤ s := by positivity
  generalize (s : ℚ) = q at *
  have hbig : 2 ^ 62 ≤ q := by
    by_contra hc
    have hc := not_le.1 hc
    have h1 : (q + 1) * (q + 1) ≤ 2 ^ 63 * 2 ^ 63 := by
      apply _root_.mul_le_mul <;> linarith [show (2:ℚ)^62 + 1 ≤ 2 ^ 63 by norm_num]
    have h2 : (2 : ℚ) ^ 63 * 2 ^ 63 < 2 ^ 320 := by
      rw [← pow_add]; exact pow_lt_pow_right₀ (by norm_num) (by norm_num)
    exact absurd (hVb.trans (hs2q.le.trans h1)) (not_le.2 h2)
  have e1 : (2 * q + b) / 2 ^ 201 * ((2 * q + b) / 2 ^ 201) = (q + b / 2) * (q + b / 2) / 2 ^ 400 := by
    rw [div_mul_div_comm, ← pow_add, show (201 + 201 : ℕ) = 2 + 400 by norm_num, pow_add]
    field_simp
  rw [e1, hv, ← sub_div, abs_div, abs_of_pos (show (0:ℚ) < 2 ^ 400 by positivity),
    div_right_comm V, div_le_div_iff_of_pos_right (by positivity), le_div_iff₀ (by positivity)]
  have hX : |(q + b / 2) * (q + b / 2) - V| ≤ 2 * q + 1 := by
    have d1 : 0 ≤ q * b := by positivity
    have d2 : q * b ≤ q * 1 := _root_.mul_le_mul_of_nonneg_left hb1 hq0
    have d3 : 0 ≤ b * b := by positivity
    have d4 : b * b ≤ 1 * 1 := _root_.mul_le_mul hb1 hb1 hb0 (by norm_num)
    have e : (q + b / 2) * (q + b / 2) = q * q + q * b + b * b / 4 := by ring
    have e' : (q + 1) * (q + 1) = q * q + 2 * q + 1 := by ring
    rw [e, abs_le]
    rw [e'] at hs2q
    constructor <;> linarith
  have h3 : (2 * q + 1) * 2 ^ 60 ≤ q * q := by
    have d1 : (2 * q + 1) * 2 ^ 60 ≤ q * 2 ^ 62 := by
      have : (2 * q + 1) ≤ q * 2 ^ 2 := by linarith [show (1:ℚ) ≤ 2 ^ 62 by norm_num]
      calc (2 * q + 1) * 2 ^ 60 ≤ q * 2 ^ 2 * 2 ^ 60 := _root_.mul_le_mul_of_nonneg_right this (by positivity)
        _ = q * 2 ^ 62 := by ring
    exact d1.trans (_root_.mul_le_mul_of_nonneg_left hbig hq0)
  have h4 : |(q + b / 2) * (q + b / 2) - V| * 2 ^ 60 ≤ (2 * q + 1) * 2 ^ 60 :=
    _root_.mul_le_mul_of_nonneg_right hX (by positivity)
  linarith

theorem unit_arith {T S N P k : ℚ} (hT : 0 < T) (hk : 0 ≤ k) (hk' : k ≤ 2 ^ 12) (hS : |S - T| ≤ T * ((k + 2) / 2 ^ 23))
    (hN0 : 0 < N) (hN : |N * N - S| ≤ S * (3 / 2 ^ 24)) (hP : |P - T / (N * N)| ≤ T / (N * N) * (3 / 2 ^ 24)) :
    |P - 1| ≤ (k + 6) / 2 ^ 22 := by
  have hd : (k + 2) / 2 ^ 23 ≤ 1 / 2 ^ 10 := by
    rw [div_le_iff₀ (by norm_num)]; linarith [show (1 / 2 ^ 10 * 2 ^ 23 : ℚ) = 2 ^ 13 by norm_num]
  have hd0 : 0 ≤ (k + 2) / 2 ^ 23 := by positivity
  have hke : (k + 6) / 2 ^ 22 = 2 * ((k + 2) / 2 ^ 23) + 8 / 2 ^ 23 := by ring
  rw [hke]
  generalize (k + 2) / 2 ^ 23 = d at *
  have a1 := abs_le.1 hS
  have a2 := abs_le.1 hN
  have hNN : 0 < N * N := by positivity
  -- T / N² is close to one
  have lo : T * (1 - d - 4 / 2 ^ 24) ≤ N * N := by
    have : T * (1 - d) ≤ S := by linarith
    have h1 : T * (1 - d) * (1 - 3 / 2 ^ 24) ≤ S * (1 - 3 / 2 ^ 24) := _root_.mul_le_mul_of_nonneg_right this (by norm_num)
    have h2 : T * (1 - d - 4 / 2 ^ 24) ≤ T * (1 - d) * (1 - 3 / 2 ^ 24) := by
      rw [_root_.mul_assoc]
      apply _root_.mul_le_mul_of_nonneg_left _ hT.le
      have : (1 - d) * (1 - 3 / 2 ^ 24) = 1 - d - 3 / 2 ^ 24 + d * (3 / 2 ^ 24) := by ring
      rw [this]
      have : 0 ≤ d * (3 / 2 ^ 24) := by positivity
      linarith
    linarith
  have hi : N * N ≤ T * (1 + d + 4 / 2 ^ 24) := by
    have : S ≤ T * (1 + d) := by linarith
    have h1 : S * (1 + 3 / 2 ^ 24) ≤ T * (1 + d) * (1 + 3 / 2 ^ 24) := _root_.mul_le_mul_of_nonneg_right this (by norm_num)
    have h2 : T * (1 + d) * (1 + 3 / 2 ^ 24) ≤ T * (1 + d + 4 / 2 ^ 24) := by
      rw [_root_.mul_assoc]
      apply _root_.mul_le_mul_of_nonneg_left _ hT.le
      have : (1 + d) * (1 + 3 / 2 ^ 24) = 1 + d + 3 / 2 ^ 24 + d * (3 / 2 ^ 24) := by ring
      rw [this]
      have : d * (3 / 2 ^ 24) ≤ 1 / 2 ^ 10 * (3 / 2 ^ 24) := _root_.mul_le_mul_of_nonneg_right hd (by norm_num)
      have h3 : (1 / 2 ^ 10 * (3 / 2 ^ 24) : ℚ) ≤ 1 / 2 ^ 24 := by norm_num
      linarith
    linarith
  set Q := T / (N * N) with hQ
  have hQ0 : 0 < Q := by positivity
  have hTQ : T = Q * (N * N) := by rw [hQ]; field_simp
  have q1 : Q * (1 - d - 4 / 2 ^ 24) ≤ 1 := by
    have : Q * (1 - d - 4 / 2 ^ 24) * (N * N) ≤ 1 * (N * N) := by
      calc Q * (1 - d - 4 / 2 ^ 24) * (N * N) = Q * (N * N) * (1 - d - 4 / 2 ^ 24) := by ring
        _ = T * (1 - d - 4 / 2 ^ 24) := by rw [← hTQ]
        _ ≤ _ := by linarith
    exact le_of_mul_le_mul_right this hNN
  have q2 : 1 ≤ Q * (1 + d + 4 / 2 ^ 24) := by
    have : 1 * (N * N) ≤ Q * (1 + d + 4 / 2 ^ 24) * (N * N) := by
      calc 1 * (N * N) ≤ T * (1 + d + 4 / 2 ^ 24) := by linarith
        _ = Q * (N * N) * (1 + d + 4 / 2 ^ 24) := by rw [← hTQ]
        _ = _ := by ring
    exact le_of_mul_le_mul_right this hNN
  clear_value Q
  have q3 : Q ≤ 1 + (3 / 2) * d + 6 / 2 ^ 24 := by
    by_contra hc
    have hc := not_le.1 hc
    have hz : 0 < 1 - d - 4 / 2 ^ 24 := by
      have : (1 / 2 ^ 10 + 4 / 2 ^ 24 : ℚ) < 1 := by norm_num
      linarith
    have := mul_lt_mul_of_pos_right hc hz
    have e : (1 + (3 / 2) * d + 6 / 2 ^ 24) * (1 - d - 4 / 2 ^ 24) = 1 + (1 / 2) * d + 2 / 2 ^ 24 - (3 / 2) * (d * d) -
        12 / 2 ^ 24 * d - 24 / 2 ^ 48 := by ring
    have e2 : d * d ≤ 1 / 2 ^ 10 * d := _root_.mul_le_mul_of_nonneg_right hd hd0
    linarith
  have q4 : 1 - d - 4 / 2 ^ 24 ≤ Q := by
    by_contra hc
    have hc := not_le.1 hc
    have hz : 0 < 1 + d + 4 / 2 ^ 24 := by positivity
    have := mul_lt_mul_of_pos_right hc hz
    have e : (1 - d - 4 / 2 ^ 24) * (1 + d + 4 / 2 ^ 24) = 1 - (d + 4 / 2 ^ 24) * (d + 4 / 2 ^ 24) := by ring
    have e2 : 0 ≤ (d + 4 / 2 ^ 24) * (d + 4 / 2 ^ 24) := by positivity
    linarith
  have a3 := abs_le.1 hP
  have q5 : Q * (3 / 2 ^ 24) ≤ 2 * (3 / 2 ^ 24) := by
    apply _root_.mul_le_mul_of_nonneg_right _ (by norm_num)
    linarith
  rw [abs_le]
  constructor <;> linarith

/-- the squares of rounded quotients -/
theorem quot_sq_err {N : ℚ} (hN : 1 / 2 ^ 40 ≤ N) : ∀ c : List F32, (∀ x ∈ c, ∃ v hv, x = fin v hv ∧ 0 ≤ v ∧ v ≤ 2 * N) →
    |((c.map (fun x => rndQ (x.val / N) * rndQ (x.val / N))).sum) - sqSum c / (N * N)| ≤
      sqSum c / (N * N) * (17 / 2 ^ 27) + c.length * (5 * eta) := by
  have hN0 : 0 < N := _root_.lt_of_lt_of_le (by positivity) hN
  intro c
  induction c with
  | nil => intro _; simp [sqSum]
  | cons x l ih =>
    intro h
    obtain ⟨v, hv, rfl, hv0, hvN⟩ := h x (by simp)
    have ih := ih (fun y hy => h y (by simp [hy]))
    have hsq : sqSum (fin v hv :: l) = v * v + sqSum l := by simp [sqSum, F32.val]
    rw [hsq, List.map_cons, List.sum_cons, List.length_cons]
    show |rndQ (v / N) * rndQ (v / N) + _ - _| ≤ _
    have e := Props.rndQ_err (v / N)
    have hq0 : 0 ≤ v / N := by positivity
    have hq2 : v / N ≤ 2 := by rw [div_le_iff₀ hN0]; exact hvN
    rw [abs_of_nonneg hq0] at e
    have hr0 : 0 ≤ rndQ (v / N) := rndQ_nonneg hq0
    have hvv : v * v / (N * N) = v / N * (v / N) := by field_simp
    rw [add_div, hvv]
    generalize (l.map (fun x => rndQ (x.val / N) * rndQ (x.val / N))).sum = A at ih ⊢
    generalize sqSum l / (N * N) = B at ih ⊢
    generalize rndQ (v / N) = r at *
    generalize v / N = q at *
    have heps : eps = 1 / 2 ^ 24 := rfl
    have heta0 : 0 ≤ eta := by unfold eta; norm_num
    have heta1 : eta ≤ 1 / 2 ^ 24 := by unfold eta; norm_num
    have k1 : |r * r - q * q| ≤ q * q * (17 / 2 ^ 27) + 5 * eta := by
      have a1 := abs_le.1 e
      have f : r * r - q * q = (r - q) * (r + q) := by ring
      rw [f, _root_.abs_mul, abs_of_nonneg (by linarith : 0 ≤ r + q)]
      have g1 : r + q ≤ q * (2 + eps) + eta := by linarith
      have g2 : |r - q| * (r + q) ≤ (q * eps + eta) * (q * (2 + eps) + eta) :=
        _root_.mul_le_mul e g1 (by linarith) (by rw [heps]; positivity)
      have g3 : (q * eps + eta) * (q * (2 + eps) + eta) = q * q * (eps * (2 + eps)) + eta * (q * (2 + 2 * eps) + eta) := by ring
      have g4 : q * q * (eps * (2 + eps)) ≤ q * q * (17 / 2 ^ 27) :=
        _root_.mul_le_mul_of_nonneg_left (by rw [heps]; norm_num) (by positivity)
      have g5 : eta * (q * (2 + 2 * eps) + eta) ≤ eta * 5 := by
        apply _root_.mul_le_mul_of_nonneg_left _ heta0
        have : q * (2 + 2 * eps) ≤ 2 * (2 + 2 * eps) := _root_.mul_le_mul_of_nonneg_right hq2 (by rw [heps]; norm_num)
        rw [heps] at this ⊢
        have h3 : (2 * (2 + 2 * (1 / 2 ^ 24)) + 1 / 2 ^ 24 : ℚ) ≤ 5 := by norm_num
        linarith
      linarith
    have f : r * r + A - (q * q + B) = (r * r - q * q) + (A - B) := by ring
    rw [f]
    have := abs_add_le (r * r - q * q) (A - B)
    push_cast
    have f2 : (q * q + B) * (17 / 2 ^ 27) + ((l.length : ℚ) + 1) * (5 * eta) =
        (q * q * (17 / 2 ^ 27) + 5 * eta) + (B * (17 / 2 ^ 27) + l.length * (5 * eta)) := by ring
    rw [f2]
    linarith

theorem round_sq {S y : ℚ} (hSlo : 1 / 2 ^ 80 ≤ S) (hy : 1 / 2 ^ 34 < y) (hsq : |y * y - S| ≤ S / 2 ^ 60) :
    |rndQ y * rndQ y - S| ≤ S * (3 / 2 ^ 24) := by
  have hy0 : 0 < y := _root_.lt_trans (by positivity) hy
  have hrel : |rndQ y - y| ≤ y * (1 / 2 ^ 24) := by
    have : pow2 (-126) ≤ |y| := by
      rw [abs_of_pos hy0]
      have : pow2 (-126) ≤ 1 / 2 ^ 34 := by decide +kernel
      linarith
    have := abs_rndQ_sub_le_rel this
    rw [abs_of_pos hy0, pow2_m24'] at this
    exact this
  have hN0 : 0 ≤ rndQ y := rndQ_nonneg hy0.le
  generalize rndQ y = N at *
  have a1 := abs_le.1 hrel
  have hNy : |N * N - y * y| ≤ y * y * (2 / 2 ^ 24 + 1 / 2 ^ 48) := by
    have f : N * N - y * y = (N - y) * (N + y) := by ring
    rw [f, _root_.abs_mul, abs_of_pos (by linarith : 0 < N + y)]
    have : N + y ≤ y * (2 + 1 / 2 ^ 24) := by linarith
    calc |N - y| * (N + y) ≤ (y * (1 / 2 ^ 24)) * (y * (2 + 1 / 2 ^ 24)) :=
          _root_.mul_le_mul hrel this (by linarith) (by positivity)
      _ = _ := by ring
  have f : N * N - S = (N * N - y * y) + (y * y - S) := by ring
  rw [f]
  have a2 := abs_add_le (N * N - y * y) (y * y - S)
  have a3 := (abs_le.1 hsq).2
  have hS0 : 0 < S := _root_.lt_of_lt_of_le (by positivity) hSlo
  have a4 : y * y ≤ S * (1 + 1 / 2 ^ 60) := by linarith
  have a5 : y * y * (2 / 2 ^ 24 + 1 / 2 ^ 48) ≤ S * (1 + 1 / 2 ^ 60) * (2 / 2 ^ 24 + 1 / 2 ^ 48) :=
    _root_.mul_le_mul_of_nonneg_right a4 (by norm_num)
  have a6 : S * (1 + 1 / 2 ^ 60) * (2 / 2 ^ 24 + 1 / 2 ^ 48) + S / 2 ^ 60 =
      S * ((1 + 1 / 2 ^ 60) * (2 / 2 ^ 24 + 1 / 2 ^ 48) + 1 / 2 ^ 60) := by ring
  have a7 : S * ((1 + 1 / 2 ^ 60) * (2 / 2 ^ 24 + 1 / 2 ^ 48) + 1 / 2 ^ 60) ≤ S * (3 / 2 ^ 24) :=
    _root_.mul_le_mul_of_nonneg_left (by norm_num) hS0.le
  linarith

theorem sum_close {S T k : ℚ} (hSlo : 1 / 2 ^ 80 ≤ S) (hT0 : 0 ≤ T) (_hk0 : 0 ≤ k) (hkl : k ≤ 2 ^ 12)
    (h3 : |S - T| ≤ T * ((k + 1) / 2 ^ 23) + 4 * k * eta) :
    0 < T ∧ |S - T| ≤ T * ((k + 2) / 2 ^ 23) := by
  have heta : eta = 1 / 2 ^ 150 := rfl
  rw [heta] at h3
  have b1 : 4 * k * (1 / 2 ^ 150) ≤ 4 * 2 ^ 12 * (1 / 2 ^ 150) := by
    apply _root_.mul_le_mul_of_nonneg_right _ (by norm_num); linarith
  have hTlo : 1 / 2 ^ 90 ≤ T := by
    by_contra hc
    have hc := not_le.1 hc
    have a1 := (abs_le.1 h3).2
    have hd : (k + 1) / 2 ^ 23 ≤ 1 := by rw [div_le_iff₀ (by norm_num)]; linarith
    have a2 : T * ((k + 1) / 2 ^ 23) ≤ T * 1 := _root_.mul_le_mul_of_nonneg_left hd hT0
    have a4 : (2 * (1 / 2 ^ 90) + 4 * 2 ^ 12 * (1 / 2 ^ 150) : ℚ) < 1 / 2 ^ 80 := by norm_num
    linarith
  refine ⟨_root_.lt_of_lt_of_le (by positivity) hTlo, ?_⟩
  have b2 : (1 / 2 ^ 90 * (1 / 2 ^ 23) : ℚ) ≤ T * (1 / 2 ^ 23) :=
    _root_.mul_le_mul_of_nonneg_right hTlo (by norm_num)
  have b3 : (4 * 2 ^ 12 * (1 / 2 ^ 150) : ℚ) ≤ 1 / 2 ^ 90 * (1 / 2 ^ 23) := by norm_num
  have e : T * ((k + 2) / 2 ^ 23) = T * ((k + 1) / 2 ^ 23) + T * (1 / 2 ^ 23) := by ring
  rw [e]; linarith

theorem tail_small {T M S k : ℚ} (hT0 : 0 < T) (hM : 0 < M) (_hk0 : 0 ≤ k) (hkl : k ≤ 2 ^ 12)
    (hST : |S - T| ≤ T * ((k + 2) / 2 ^ 23)) (hNS : |M - S| ≤ S * (3 / 2 ^ 24)) :
    T / M * (17 / 2 ^ 27) + k * (5 * eta) ≤ T / M * (3 / 2 ^ 24) := by
  have hQ : 1 / 2 ≤ T / M := by
    rw [div_le_div_iff₀ (by norm_num) hM]
    have a1 := (abs_le.1 hNS).2
    have a2 := (abs_le.1 hST).2
    have hd : (k + 2) / 2 ^ 23 ≤ 1 / 2 ^ 10 := by
      rw [div_le_iff₀ (by norm_num)]; linarith [show (1 / 2 ^ 10 * 2 ^ 23 : ℚ) = 2 ^ 13 by norm_num]
    have a3 : T * ((k + 2) / 2 ^ 23) ≤ T * (1 / 2 ^ 10) := _root_.mul_le_mul_of_nonneg_left hd hT0.le
    linarith
  have heta : eta = 1 / 2 ^ 150 := rfl
  rw [heta]
  have b1 : k * (5 * (1 / 2 ^ 150)) ≤ 2 ^ 12 * (5 * (1 / 2 ^ 150)) :=
    _root_.mul_le_mul_of_nonneg_right hkl (by norm_num)
  have b2 : (1 / 2 * (7 / 2 ^ 27) : ℚ) ≤ T / M * (7 / 2 ^ 27) :=
    _root_.mul_le_mul_of_nonneg_right hQ (by norm_num)
  have b3 : (2 ^ 12 * (5 * (1 / 2 ^ 150)) : ℚ) ≤ 1 / 2 * (7 / 2 ^ 27) := by norm_num
  linarith

theorem eps_val : ∃ q hq, EPS = fin q hq ∧ 1 / 2 ^ 34 ≤ q :=
  ⟨EPS.val, by decide +kernel, by decide +kernel, by decide +kernel⟩

/-- the computed norm, when finite and above the threshold -/
theorem norm2_fin {c : List F32} (h : Mags c) (hl : c.length ≤ 2 ^ 12) (hn : EPS < norm2 c)
    (hf : (norm2 c).isFinite = true) :
    ∃ N hN, norm2 c = fin N hN ∧ 1 / 2 ^ 34 < N ∧ ∃ S, 0 < sqSum c ∧
      |S - sqSum c| ≤ sqSum c * (((c.length : ℚ) + 2) / 2 ^ 23) ∧ |N * N - S| ≤ S * (3 / 2 ^ 24) := by
  have hs0 : 0 ≤ F32.sum (c.map (fun x => x * x)) := sum_nonneg (sqs_nonneg h)
  have hsf : (F32.sum (c.map (fun x => x * x))).isFinite = true := by
    rcases nonneg_cases hs0 with e | ⟨v, hv, e, _⟩
    · unfold norm2 at hf; rw [e] at hf; simp [F32.sqrt, isFinite] at hf
    · rw [e]; rfl
  obtain ⟨S, hS, h1, h2, h3⟩ := sqsum_err c h (by omega) hsf
  have hN : norm2 c = rnd (sqrtQ S) := by unfold norm2; rw [h1, sqrt_fin h2]
  have hlt : |rndQ (sqrtQ S)| < pow2 128 := rnd_finite (by rw [← hN]; exact hf)
  have hN' : norm2 c = fin (rndQ (sqrtQ S)) ⟨onGrid_rndQ _, hlt⟩ := by rw [hN, rnd_of_lt hlt]
  obtain ⟨q, hq, eE, hqv⟩ := eps_val
  have hNlo : 1 / 2 ^ 34 < rndQ (sqrtQ S) := by
    rw [eE, hN', fin_lt_fin] at hn
    exact _root_.lt_of_le_of_lt hqv hn
  have hg34 : OnGrid (1 / 2 ^ 34) := by decide +kernel
  have hy : 1 / 2 ^ 34 < sqrtQ S := by
    by_contra hc
    exact absurd (rndQ_le_of_onGrid hg34 (not_lt.1 hc)) (not_le.2 hNlo)
  have hSlo : 1 / 2 ^ 80 ≤ S := by
    by_contra hc
    have hc := not_le.1 hc
    have : sqrtQ S ≤ 1 / 2 ^ 34 := by
      apply sqrtQ_le hg34 (by positivity)
      have : (1 / 2 ^ 80 : ℚ) ≤ 1 / 2 ^ 34 * (1 / 2 ^ 34) := by norm_num
      exact hc.le.trans this
    exact absurd hy (not_lt.2 this)
  have hkl : (c.length : ℚ) ≤ 2 ^ 12 := by exact_mod_cast hl
  have hk0 : (0 : ℚ) ≤ c.length := by positivity
  obtain ⟨hT, hST⟩ := sum_close hSlo (sqSum_nonneg c) hk0 hkl h3
  exact ⟨_, _, hN', hNlo, S, hT, hST, round_sq hSlo hy (sqrtQ_sq hSlo)⟩

/-- **Unit norm.** When the computed norm is finite and above the threshold, the squares of the
quotients add up to `1` up to `(n + 6) / 2^22`. -/
theorem unit_norm {c : List F32} (h : Mags c) (hl : c.length ≤ 2 ^ 12) (hn : EPS < norm2 c)
    (hf : (norm2 c).isFinite = true) :
    |sqSum (c.map (fun x => x / norm2 c)) - 1| ≤ ((c.length : ℚ) + 6) / 2 ^ 22 := by
  obtain ⟨N, hNg, hN', hNlo, S, hTpos, hST, hNS⟩ := norm2_fin h hl hn hf
  have hN0 : 0 < N := _root_.lt_trans (by positivity) hNlo
  have hkl : (c.length : ℚ) ≤ 2 ^ 12 := by exact_mod_cast hl
  have hk0 : (0 : ℚ) ≤ c.length := by positivity
  -- the entries, as rationals below twice the norm
  have hent : ∀ x ∈ c, ∃ v hv, x = fin v hv ∧ 0 ≤ v ∧ v ≤ 2 * N := by
    intro x hx
    obtain ⟨hx0, hxf⟩ := h x hx
    obtain ⟨v, hv, rfl⟩ := isFinite_iff.1 hxf
    rw [zero_def, fin_le_fin] at hx0
    have hvN : v ≤ N := by
      rcases le_norm2 h hx with h4 | h4
      · have h5 : fin v hv < norm2 c := F32.lt_trans (F32.lt_of_lt_of_le h4 tiny_le_eps) hn
        rw [hN', fin_lt_fin] at h5
        exact h5.le
      · rw [hN', fin_le_fin] at h4; exact h4
    exact ⟨v, hv, rfl, hx0, hvN.trans (by linarith)⟩
  have hNlo' : 1 / 2 ^ 40 ≤ N := _root_.le_trans (by norm_num) hNlo.le
  have hP := quot_sq_err hNlo' c hent
  have hval : sqSum (c.map (fun x => x / norm2 c)) = (c.map (fun x => rndQ (x.val / N) * rndQ (x.val / N))).sum := by
    unfold sqSum
    rw [List.map_map]
    congr 1
    apply List.map_congr_left
    intro x hx
    obtain ⟨v, hv, rfl, hv0, hvN⟩ := hent x hx
    have hqv : (fin v hv / norm2 c).val = rndQ (v / N) := by
      rw [hN', div_fin hN0.ne']
      have hq0 : 0 ≤ v / N := by positivity
      have hq2 : v / N ≤ 2 := by rw [div_le_iff₀ hN0]; exact hvN
      have : |rndQ (v / N)| < pow2 128 := by
        rw [abs_of_nonneg (rndQ_nonneg hq0)]
        exact _root_.lt_of_le_of_lt (rndQ_le_of_onGrid (by decide +kernel : OnGrid 2) hq2) (by decide +kernel)
      rw [rnd_of_lt this]; rfl
    show (fin v hv / norm2 c).val * (fin v hv / norm2 c).val = rndQ (v / N) * rndQ (v / N)
    rw [hqv]
  rw [hval]
  have hNN : 0 < N * N := by positivity
  exact unit_arith hTpos hk0 hkl hST hN0 hNS (hP.trans (tail_small hTpos hNN hk0 hkl hST hNS))

end Verif.Chroma
