/-
Multi-resolution fusion (C25): src/features/period/multi_resolution.rs, `multi_resolution_analysis`.
-/
import Verif.Model.MultiRes
import Verif.Lemmas.KeyDet
import Verif.Props.TempoTotal

namespace Verif.Props
open Verif F32 Tempogram Novelty

/-! ### Specification -/

/-- the call panicked or did not return -/
def Crashed (o : R Period.Est) : Prop := o = R.panic ∨ o = R.outOfFuel

/-- what the three resolutions answer, in the order in which they run -/
def outcomes (M : Libm) (fft : List F32 → ℕ → F32 × F32) (fuel : ℕ) (spec : List (List F32)) (sr : ℕ) (minB maxB res : F32) :
    List (R Period.Est) :=
  [estimate M fft fuel spec ⟨sr, 256, minB, maxB, res⟩ none, estimate M fft fuel spec ⟨sr, 512, minB, maxB, res⟩ none,
    estimate M fft fuel spec ⟨sr, 1024, minB, maxB, res⟩ none]

/-- the estimates among some outcomes -/
def successes (outs : List (R Period.Est)) : List Period.Est :=
  outs.filterMap (fun o => match o with
    | .ok e => some e
    | .error _ => none)

/-- exact mean -/
def meanQ (l : List ℚ) : ℚ := l.sum / l.length

/-! ### Collecting -/

theorem collect_eq : ∀ outs : List (R Period.Est), (∀ o ∈ outs, ¬ Crashed o) → MultiRes.collect outs = .ok (successes outs)
  | [], _ => rfl
  | .ok e :: rs, h => by
    have := collect_eq rs (fun o ho => h o (by simp [ho]))
    unfold MultiRes.collect
    rw [this]; rfl
  | .error (.err k) :: rs, h => by
    have := collect_eq rs (fun o ho => h o (by simp [ho]))
    unfold MultiRes.collect
    rw [this]; rfl
  | .error .panic :: rs, h => absurd (Or.inl rfl) (h (.error .panic) (by simp))
  | .error .fuel :: rs, h => absurd (Or.inr rfl) (h (.error .fuel) (by simp))

theorem collect_crash : ∀ outs : List (R Period.Est), (∃ o ∈ outs, Crashed o) →
    MultiRes.collect outs = R.panic ∨ MultiRes.collect outs = R.outOfFuel
  | [], h => by obtain ⟨o, ho, -⟩ := h; simp at ho
  | .ok e :: rs, h => by
    have h' : ∃ o ∈ rs, Crashed o := by
      obtain ⟨o, ho, hc⟩ := h
      rcases List.mem_cons.1 ho with rfl | ho
      · rcases hc with hc | hc <;> cases hc
      · exact ⟨o, ho, hc⟩
    unfold MultiRes.collect
    rcases collect_crash rs h' with e | e <;> rw [e]
    · exact Or.inl rfl
    · exact Or.inr rfl
  | .error (.err k) :: rs, h => by
    have h' : ∃ o ∈ rs, Crashed o := by
      obtain ⟨o, ho, hc⟩ := h
      rcases List.mem_cons.1 ho with rfl | ho
      · rcases hc with hc | hc <;> cases hc
      · exact ⟨o, ho, hc⟩
    unfold MultiRes.collect
    exact collect_crash rs h'
  | .error .panic :: rs, h => Or.inl rfl
  | .error .fuel :: rs, h => Or.inr rfl

theorem analysis_eq {M : Libm} {fft} {fuel : ℕ} {spec : List (List F32)} {sr : ℕ} {minB maxB res : F32}
    (h : ∀ o ∈ outcomes M fft fuel spec sr minB maxB res, ¬ Crashed o) :
    MultiRes.analysis M fft fuel spec sr minB maxB res =
      MultiRes.combine (successes (outcomes M fft fuel spec sr minB maxB res)) := by
  unfold MultiRes.analysis
  rw [show MultiRes.hops.map (fun h => estimate M fft fuel spec ⟨sr, h, minB, maxB, res⟩ none) =
    outcomes M fft fuel spec sr minB maxB res from rfl, collect_eq _ h]
  rfl

theorem mem_successes {outs : List (R Period.Est)} {e : Period.Est} : e ∈ successes outs ↔ .ok e ∈ outs := by
  unfold successes
  rw [List.mem_filterMap]
  constructor
  · rintro ⟨o, ho, h⟩
    rcases o with f | a
    · cases h
    · cases h; exact ho
  · intro h
    exact ⟨_, h, rfl⟩

theorem combine_ok (rs : List Period.Est) : (∃ e, MultiRes.combine rs = .ok e) ↔ rs ≠ [] := by
  unfold MultiRes.combine
  rcases rs with _ | ⟨a, _ | ⟨b, rs⟩⟩
  · simp [R.err]
  · simp
  · dsimp only
    split_ifs <;> simp

/-- **C25 (success)**: if no resolution crashes, the analysis succeeds exactly when at least one resolution does, and
otherwise it reports a processing error; a crash of any resolution is a crash of the analysis. -/
theorem C25_success (M : Libm) (fft : List F32 → ℕ → F32 × F32) (fuel : ℕ) (spec : List (List F32)) (sr : ℕ)
    (minB maxB res : F32) :
    ((∀ o ∈ outcomes M fft fuel spec sr minB maxB res, ¬ Crashed o) →
      ((∃ e, MultiRes.analysis M fft fuel spec sr minB maxB res = .ok e) ↔
        ∃ e, .ok e ∈ outcomes M fft fuel spec sr minB maxB res) ∧
      ((¬ ∃ e, .ok e ∈ outcomes M fft fuel spec sr minB maxB res) →
        MultiRes.analysis M fft fuel spec sr minB maxB res = R.err .processing)) ∧
    ((∃ o ∈ outcomes M fft fuel spec sr minB maxB res, Crashed o) →
      Crashed (MultiRes.analysis M fft fuel spec sr minB maxB res)) := by
  refine ⟨fun h => ?_, fun h => ?_⟩
  · rw [analysis_eq h, combine_ok]
    have hiff : successes (outcomes M fft fuel spec sr minB maxB res) ≠ [] ↔
        ∃ e, .ok e ∈ outcomes M fft fuel spec sr minB maxB res := by
      constructor
      · intro hne
        obtain ⟨e, l, he⟩ := List.exists_cons_of_ne_nil hne
        exact ⟨e, mem_successes.1 (by rw [he]; simp)⟩
      · rintro ⟨e, he⟩
        exact List.ne_nil_of_mem (mem_successes.2 he)
    refine ⟨hiff, fun hn => ?_⟩
    have : successes (outcomes M fft fuel spec sr minB maxB res) = [] := by
      by_contra hne; exact hn (hiff.1 hne)
    rw [this]; rfl
  · unfold MultiRes.analysis
    have := collect_crash _ h
    rw [show MultiRes.hops.map (fun h => estimate M fft fuel spec ⟨sr, h, minB, maxB, res⟩ none) =
      outcomes M fft fuel spec sr minB maxB res from rfl]
    rcases this with e | e <;> rw [e]
    · exact Or.inl rfl
    · exact Or.inr rfl

/-! ### Averages in `f32` -/

/-- within `k` relative rounding errors of `q` -/
def NearQ (x : F32) (q : ℚ) (k : ℕ) : Prop :=
  ∃ v hv, x = fin v hv ∧ q * (1 - pow2 (-24)) ^ k ≤ v ∧ v ≤ q * (1 + pow2 (-24)) ^ k

theorem u_pos : (0 : ℚ) < pow2 (-24) ∧ pow2 (-24) < 1 / 1000 := by rw [pow2_eq]; norm_num

theorem near_rnd {q v : ℚ} {k : ℕ} (hk : k ≤ 3) (h1 : 1 / 4 ≤ q) (h2 : q ≤ pow2 122) (l : q * (1 - pow2 (-24)) ^ k ≤ v)
    (u : v ≤ q * (1 + pow2 (-24)) ^ k) : NearQ (rnd v) q (k + 1) := by
  obtain ⟨u0, u1⟩ := u_pos
  generalize hd : pow2 (-24) = d at *
  have hq : 0 < q := by linarith
  have hlow : (1 / 2 : ℚ) ≤ (1 - d) ^ k := by
    have : (1 - d) ^ 3 ≤ (1 - d) ^ k := pow_le_pow_of_le_one (by linarith) (by linarith) hk
    have h3 : (1 - 3 * d) ≤ (1 - d) ^ 3 := by
      have e : (1 - d) ^ 3 = 1 - 3 * d + d ^ 2 * (3 - d) := by ring
      have : 0 ≤ d ^ 2 * (3 - d) := mul_nonneg (sq_nonneg d) (by linarith)
      linarith
    linarith
  have hhi : (1 + d) ^ k ≤ 2 := by
    have : (1 + d) ^ k ≤ (1 + d) ^ 3 := pow_le_pow_right₀ (by linarith) hk
    have h3 : (1 + d) ^ 3 ≤ 1 + 8 * d := by
      have e : (1 + d) ^ 3 = 1 + 8 * d - d * (5 - 3 * d - d * d) := by ring
      have : 0 ≤ d * (5 - 3 * d - d * d) := mul_nonneg (by linarith) (by nlinarith)
      linarith
    linarith
  have hv0 : 1 / 8 ≤ v := by nlinarith
  have hv1 : v ≤ pow2 123 := by
    have : pow2 123 = pow2 122 * 2 := by rw [pow2_eq, pow2_eq]; norm_num
    rw [this]
    exact le_trans u (mul_le_mul h2 hhi (by positivity) (le_of_lt (pow2_pos _)))
  have hvp : 0 < v := by linarith
  obtain ⟨hb, e, -⟩ := rnd_finite_of_abs_le (q := v) (b := pow2 123) (g_p 123 (by norm_num) (by norm_num))
    (by rw [abs_of_pos hvp]; exact hv1)
  have herr := abs_rndQ_sub_le_rel (q := v) (by rw [abs_of_pos hvp]; exact le_trans (by rw [pow2_eq]; norm_num) hv0)
  rw [abs_of_pos hvp, hd] at herr
  have herr := abs_le.1 herr
  refine ⟨_, hb, e, ?_, ?_⟩
  · rw [hd]
    calc q * (1 - d) ^ (k + 1) = q * (1 - d) ^ k * (1 - d) := by ring
      _ ≤ v * (1 - d) := mul_le_mul_of_nonneg_right l (by linarith)
      _ ≤ rndQ v := by linarith [herr.1]
  · rw [hd]
    calc rndQ v ≤ v * (1 + d) := by linarith [herr.2]
      _ ≤ q * (1 + d) ^ k * (1 + d) := mul_le_mul_of_nonneg_right u (by linarith)
      _ = q * (1 + d) ^ (k + 1) := by ring

theorem near_self {v : ℚ} (hv : OnGrid v ∧ |v| < pow2 128) : NearQ (fin v hv) v 0 :=
  ⟨v, hv, rfl, by simp, by simp⟩

theorem near_weaken {x : F32} {q : ℚ} {k : ℕ} (hq : 0 ≤ q) (h : NearQ x q k) : NearQ x q (k + 1) := by
  obtain ⟨u0, u1⟩ := u_pos
  obtain ⟨v, hv, rfl, l, u⟩ := h
  generalize hd : pow2 (-24) = d at *
  refine ⟨v, hv, rfl, le_trans ?_ l, le_trans u ?_⟩ <;> rw [hd]
  · exact mul_le_mul_of_nonneg_left (pow_le_pow_of_le_one (by linarith) (by linarith) (by omega)) hq
  · exact mul_le_mul_of_nonneg_left (pow_le_pow_right₀ (by linarith) (by omega)) hq

theorem near_add {x y : F32} {q r : ℚ} {k : ℕ} (hk : k ≤ 3) (hx : NearQ x q k) (hy : NearQ y r k) (h1 : 1 / 4 ≤ q + r)
    (h2 : q + r ≤ pow2 122) : NearQ (x + y) (q + r) (k + 1) := by
  obtain ⟨v, hv, rfl, l, u⟩ := hx
  obtain ⟨w, hw, rfl, l', u'⟩ := hy
  rw [add_fin]
  exact near_rnd hk h1 h2 (by rw [add_mul]; linarith) (by rw [add_mul]; linarith)

theorem near_div {x : F32} {q : ℚ} {k n : ℕ} (hk : k ≤ 3) (hx : NearQ x q k) (hn : 0 < n) (hn' : n < 2 ^ 24)
    (h1 : 1 / 4 ≤ q / n) (h2 : q / n ≤ pow2 122) : NearQ (x / F32.ofNat n) (q / n) (k + 1) := by
  obtain ⟨v, hv, rfl, l, u⟩ := hx
  have hnq : (0 : ℚ) < n := by exact_mod_cast hn
  obtain ⟨g, e⟩ : ∃ g, F32.ofNat n = fin n g := ⟨grid_nat (by omega), rnd_val _⟩
  rw [e, div_fin (by positivity)]
  refine near_rnd hk h1 h2 ?_ ?_
  · rw [div_mul_eq_mul_div]; exact (div_le_div_iff_of_pos_right hnq).2 l
  · rw [div_mul_eq_mul_div]; exact (div_le_div_iff_of_pos_right hnq).2 u

theorem zero_add_fin {v : ℚ} (hv : OnGrid v ∧ |v| < pow2 128) : (0 : F32) + fin v hv = fin v hv := by
  rw [zero_def, add_fin, _root_.zero_add, rnd_val hv]

/-- the `f32` mean of two or three ordinary values is within a relative error of 2^-22 of the exact mean -/
theorem mean_near {l : List F32} (h2 : 2 ≤ l.length) (h3 : l.length ≤ 3)
    (h : ∀ x ∈ l, ∃ v hv, x = fin v hv ∧ 1 ≤ v ∧ v ≤ pow2 120) :
    NearQ (F32.sum l / F32.ofNat l.length) (meanQ (l.map F32.val)) 3 := by
  have e120 : pow2 122 = 4 * pow2 120 := by rw [pow2_eq, pow2_eq]; norm_num
  have p120 := pow2_pos 120
  rcases l with _ | ⟨a, _ | ⟨b, _ | ⟨c, _ | ⟨d, l⟩⟩⟩⟩
  · simp at h2
  · simp at h2
  · obtain ⟨v, hv, rfl, v1, v2⟩ := h a (by simp)
    obtain ⟨w, hw, rfl, w1, w2⟩ := h b (by simp)
    have hs : NearQ (F32.sum [fin v hv, fin w hw]) (v + w) 1 := by
      show NearQ (0 + fin v hv + fin w hw) _ _
      rw [zero_add_fin]
      exact near_add (by omega) (near_self _) (near_self _) (by linarith) (by linarith)
    have hd := near_div (k := 1) (n := 2) (by omega) hs (by omega) (by omega) (by push_cast; linarith) (by push_cast; linarith)
    have : meanQ ([fin v hv, fin w hw].map F32.val) = (v + w) / (2 : ℕ) := by
      show (v + (w + 0)) / ((2 : ℕ) : ℚ) = _
      rw [_root_.add_zero]
    rw [this]
    exact near_weaken (by push_cast; linarith) hd
  · obtain ⟨v, hv, rfl, v1, v2⟩ := h a (by simp)
    obtain ⟨w, hw, rfl, w1, w2⟩ := h b (by simp)
    obtain ⟨z, hz, rfl, z1, z2⟩ := h c (by simp)
    have hs : NearQ (F32.sum [fin v hv, fin w hw, fin z hz]) (v + w + z) 2 := by
      show NearQ (0 + fin v hv + fin w hw + fin z hz) _ _
      rw [zero_add_fin]
      exact near_add (by omega) (near_add (by omega) (near_self _) (near_self _) (by linarith) (by linarith))
        (near_weaken (by linarith) (near_self _)) (by linarith) (by linarith)
    have hd := near_div (k := 2) (n := 3) (by omega) hs (by omega) (by omega) (by push_cast; linarith) (by push_cast; linarith)
    have : meanQ ([fin v hv, fin w hw, fin z hz].map F32.val) = (v + w + z) / (3 : ℕ) := by
      show (v + (w + (z + 0))) / ((3 : ℕ) : ℚ) = _
      rw [_root_.add_zero, ← _root_.add_assoc]
    rw [this]
    exact hd
  · simp at h3

/-- within `ε` of `q` -/
def AbsNear (x : F32) (q ε : ℚ) : Prop := ∃ v hv, x = fin v hv ∧ |v - q| ≤ ε

theorem abs_rnd {v q ε : ℚ} (h : |v - q| ≤ ε) (hv : |v| ≤ 4) : AbsNear (rnd v) q (ε + 1 / 2 ^ 21) := by
  obtain ⟨hb, e, -⟩ := rnd_finite_of_abs_le (q := v) (b := pow2 2) (g_p 2 (by norm_num) (by norm_num))
    (le_trans hv (by rw [pow2_eq]; norm_num))
  refine ⟨_, hb, e, ?_⟩
  have h1 := rndQ_err v
  have h2 : |v| * eps + eta ≤ 1 / 2 ^ 21 := by
    have : eps ≤ 1 / 2 ^ 24 := by unfold eps; norm_num
    have h0 : 0 ≤ eps := by unfold eps; norm_num
    have : eta ≤ 1 / 2 ^ 24 := by unfold eta; norm_num
    nlinarith [abs_nonneg v]
  have : |rndQ v - q| ≤ |rndQ v - v| + |v - q| := abs_sub_le _ _ _
  linarith

theorem absnear_mono {x : F32} {q ε δ : ℚ} (h : AbsNear x q ε) (hd : ε ≤ δ) : AbsNear x q δ := by
  obtain ⟨v, hv, e, hb⟩ := h
  exact ⟨v, hv, e, le_trans hb hd⟩

theorem absnear_ne_nan {x : F32} {q ε : ℚ} (h : AbsNear x q ε) : x ≠ nan := by
  obtain ⟨v, hv, rfl, -⟩ := h
  simp

theorem absnear_add {x y : F32} {q r ε : ℚ} (hx : AbsNear x q ε) (hy : AbsNear y r 0) (h1 : |q + r| ≤ 3) (he : ε ≤ 1) :
    AbsNear (x + y) (q + r) (ε + 1 / 2 ^ 21) := by
  obtain ⟨v, hv, rfl, hb⟩ := hx
  obtain ⟨w, hw, rfl, hb'⟩ := hy
  have : w = r := by linarith [abs_le.1 hb']
  subst this
  rw [add_fin]
  have h : |v + w - (q + w)| ≤ ε := by rw [show v + w - (q + w) = v - q by ring]; exact hb
  refine abs_rnd h ?_
  calc |v + w| = |(v + w - (q + w)) + (q + w)| := by congr 1; ring
    _ ≤ |v + w - (q + w)| + |q + w| := abs_add_le _ _
    _ ≤ 4 := by linarith

theorem absnear_div {x : F32} {q ε : ℚ} {n : ℕ} (hx : AbsNear x q ε) (hn : 0 < n) (hn' : n < 2 ^ 24) (h1 : |q| ≤ 3)
    (he : ε ≤ 1) : AbsNear (x / F32.ofNat n) (q / n) (ε + 1 / 2 ^ 21) := by
  obtain ⟨v, hv, rfl, hb⟩ := hx
  have hnq : (1 : ℚ) ≤ n := by exact_mod_cast hn
  obtain ⟨g, e⟩ : ∃ g, F32.ofNat n = fin n g := ⟨grid_nat (by omega), rnd_val _⟩
  rw [e, div_fin (by positivity)]
  have hd : ∀ z : ℚ, |z / n| ≤ |z| := by
    intro z
    rw [abs_div, abs_of_pos (show (0 : ℚ) < n by linarith)]
    exact div_le_self (abs_nonneg _) hnq
  refine abs_rnd ?_ ?_
  · rw [← sub_div]; exact le_trans (hd _) hb
  · refine le_trans (hd _) ?_
    calc |v| = |(v - q) + q| := by congr 1; ring
      _ ≤ |v - q| + |q| := abs_add_le _ _
      _ ≤ 4 := by linarith

theorem absnear_12 {x : F32} {q ε : ℚ} (hx : AbsNear x q ε) (q0 : 0 ≤ q) (q1 : q ≤ 1) (he : ε ≤ 3 / 2 ^ 21) :
    AbsNear (x * 1.2) (6 / 5 * q) (1 / 2 ^ 18) := by
  obtain ⟨g12, e12⟩ : ∃ g, (1.2 : F32) = fin (1.2 : F32).val g := ⟨by decide +kernel, by decide +kernel⟩
  have b12 : |(1.2 : F32).val - 6 / 5| ≤ 1 / 2 ^ 23 := by decide +kernel
  have b12' : (1.2 : F32).val ≤ 13 / 10 ∧ 0 ≤ (1.2 : F32).val := by decide +kernel
  obtain ⟨v, hv, rfl, hb⟩ := hx
  rw [e12, mul_fin]
  generalize (1.2 : F32).val = w at *
  have hv : |v * w - 6 / 5 * q| ≤ 13 / 10 * ε + 1 / 2 ^ 23 := by
    have e : v * w - 6 / 5 * q = (v - q) * w + q * (w - 6 / 5) := by ring
    rw [e]
    refine le_trans (abs_add_le _ _) (_root_.add_le_add ?_ ?_)
    · rw [_root_.abs_mul, abs_of_nonneg b12'.2, _root_.mul_comm]
      exact mul_le_mul b12'.1 hb (abs_nonneg _) (by norm_num)
    · rw [_root_.abs_mul, abs_of_nonneg q0]
      calc q * |w - 6 / 5| ≤ 1 * (1 / 2 ^ 23) := mul_le_mul q1 b12 (abs_nonneg _) (by norm_num)
        _ = 1 / 2 ^ 23 := by norm_num
  refine absnear_mono (abs_rnd hv ?_) (by linarith)
  have := abs_le.1 hv
  rw [abs_le]; constructor <;> linarith

/-- 1.2 times the `f32` mean of two or three values of `[0,1]` -/
theorem conf_near {l : List F32} (h2 : 2 ≤ l.length) (h3 : l.length ≤ 3) (h : ∀ x ∈ l, InUnit x) :
    AbsNear (F32.sum l / F32.ofNat l.length * 1.2) (6 / 5 * meanQ (l.map F32.val)) (1 / 2 ^ 18) ∧
    0 ≤ F32.sum l / F32.ofNat l.length * 1.2 := by
  have hun : ∀ x ∈ l, ∃ v hv, x = fin v hv ∧ 0 ≤ v ∧ v ≤ 1 := by
    intro x hx
    obtain ⟨v, hv, e, v0, v1⟩ := bd_unit (h x hx)
    exact ⟨v, hv, e, v0, v1⟩
  have hself : ∀ {v : ℚ} (hv : OnGrid v ∧ |v| < pow2 128), AbsNear (fin v hv) v 0 := fun hv => ⟨_, hv, rfl, by simp⟩
  have key : ∃ ε, ε ≤ 3 / 2 ^ 21 ∧ AbsNear (F32.sum l / F32.ofNat l.length) (meanQ (l.map F32.val)) ε ∧
      0 ≤ meanQ (l.map F32.val) ∧ meanQ (l.map F32.val) ≤ 1 := by
    rcases l with _ | ⟨a, _ | ⟨b, _ | ⟨c, _ | ⟨d, l⟩⟩⟩⟩
    · simp at h2
    · simp at h2
    · obtain ⟨v, hv, rfl, v1, v2⟩ := hun a (by simp)
      obtain ⟨w, hw, rfl, w1, w2⟩ := hun b (by simp)
      have hs : AbsNear (F32.sum [fin v hv, fin w hw]) (v + w) (0 + 1 / 2 ^ 21) := by
        show AbsNear (0 + fin v hv + fin w hw) _ _
        rw [zero_add_fin]
        exact absnear_add (hself _) (hself _) (by rw [abs_of_nonneg] <;> linarith) (by norm_num)
      have hd := absnear_div (n := 2) hs (by omega) (by omega) (by rw [abs_of_nonneg] <;> linarith) (by norm_num)
      have : meanQ ([fin v hv, fin w hw].map F32.val) = (v + w) / (2 : ℕ) := by
        show (v + (w + 0)) / ((2 : ℕ) : ℚ) = _
        rw [_root_.add_zero]
      rw [this]
      exact ⟨_, by norm_num, hd, by positivity, by push_cast; linarith⟩
    · obtain ⟨v, hv, rfl, v1, v2⟩ := hun a (by simp)
      obtain ⟨w, hw, rfl, w1, w2⟩ := hun b (by simp)
      obtain ⟨z, hz, rfl, z1, z2⟩ := hun c (by simp)
      have hs : AbsNear (F32.sum [fin v hv, fin w hw, fin z hz]) (v + w + z) (0 + 1 / 2 ^ 21 + 1 / 2 ^ 21) := by
        show AbsNear (0 + fin v hv + fin w hw + fin z hz) _ _
        rw [zero_add_fin]
        exact absnear_add (absnear_add (hself _) (hself _) (by rw [abs_of_nonneg] <;> linarith) (by norm_num)) (hself _)
          (by rw [abs_of_nonneg] <;> linarith) (by norm_num)
      have hd := absnear_div (n := 3) hs (by omega) (by omega) (by rw [abs_of_nonneg] <;> linarith) (by norm_num)
      have : meanQ ([fin v hv, fin w hw, fin z hz].map F32.val) = (v + w + z) / (3 : ℕ) := by
        show (v + (w + (z + 0))) / ((3 : ℕ) : ℚ) = _
        rw [_root_.add_zero, ← _root_.add_assoc]
      rw [this]
      exact ⟨_, by norm_num, hd, by positivity, by push_cast; linarith⟩
    · simp at h3
  obtain ⟨ε, he, hd, q0, q1⟩ := key
  have h12 := absnear_12 hd q0 q1 he
  refine ⟨h12, F32.mul_nonneg (F32.div_nonneg (sum_nonneg fun x hx => (h x hx).1) (ofNat_nonneg _) (absnear_ne_nan hd))
    (by decide +kernel) (absnear_ne_nan h12)⟩

/-! ### The decision -/

theorem outcome_range {M : Libm} {fft} {fuel : ℕ} {spec : List (List F32)} {sr : ℕ} {minB maxB res : F32} {a : Period.Est}
    (h : a ∈ successes (outcomes M fft fuel spec sr minB maxB res)) :
    minB ≤ a.bpm ∧ a.bpm ≤ maxB ∧ InUnit a.conf ∧ a.agreement ≤ 2 := by
  have key : ∀ hop, estimate M fft fuel spec ⟨sr, hop, minB, maxB, res⟩ none = .ok a →
      minB ≤ a.bpm ∧ a.bpm ≤ maxB ∧ InUnit a.conf ∧ a.agreement ≤ 2 := by
    intro hop he
    have h1 := (C21_range M fft fuel spec ⟨sr, hop, minB, maxB, res⟩ none 0).1 a he
    exact ⟨h1.1.1, h1.1.2, C21_confidence_partial M fft fuel spec _ none (fun c hc => by cases hc) a he, h1.2.2⟩
  have := mem_successes.1 h
  unfold outcomes at this
  simp only [List.mem_cons, List.not_mem_nil, or_false] at this
  rcases this with e | e | e
  · exact key _ e.symm
  · exact key _ e.symm
  · exact key _ e.symm

theorem successes_len {outs : List (R Period.Est)} : (successes outs).length ≤ outs.length := by
  unfold successes; exact List.length_filterMap_le _ _

/-- a search range of ordinary size -/
def OrdinaryRange (minB maxB : F32) : Prop := 1 ≤ minB ∧ maxB ≤ rnd (pow2 120)

theorem ordinary_val {minB maxB b : F32} (h : OrdinaryRange minB maxB) (h1 : minB ≤ b) (h2 : b ≤ maxB) :
    ∃ v hv, b = fin v hv ∧ 1 ≤ v ∧ v ≤ pow2 120 := by
  have g := g_p 120 (by norm_num) (by norm_num)
  have l := F32.le_trans h.1 h1
  have u := F32.le_trans h2 h.2
  rw [one_def] at l
  rw [rnd_val g] at u
  obtain ⟨v, hv, e, l', u'⟩ := between_cases l u
  exact ⟨v, hv, e, l', u'⟩

/-- **C25 (agreement)**: if at least two resolutions answer and all answers are within 2 BPM of the first, the result is
their mean (up to a relative rounding error of 2^-22), the confidence is 1.2 times the mean confidence but at most one (up
to 2^-18), within `[0,1]`, and the agreement is the number of answers. -/
theorem C25_agree (M : Libm) (fft : List F32 → ℕ → F32 × F32) (fuel : ℕ) (spec : List (List F32)) (sr : ℕ)
    (minB maxB res : F32) (hr : OrdinaryRange minB maxB) (first : Period.Est) (rest : List Period.Est)
    (hn : ∀ o ∈ outcomes M fft fuel spec sr minB maxB res, ¬ Crashed o)
    (hs : successes (outcomes M fft fuel spec sr minB maxB res) = first :: rest) (h2 : rest ≠ [])
    (hag : ∀ a ∈ rest, (a.bpm - first.bpm).abs < 2) :
    ∃ e, MultiRes.analysis M fft fuel spec sr minB maxB res = .ok e ∧ e.agreement = rest.length + 1 ∧
      |e.bpm.val - meanQ ((first :: rest).map (fun a => a.bpm.val))| ≤
        meanQ ((first :: rest).map (fun a => a.bpm.val)) / 2 ^ 22 ∧
      InUnit e.conf ∧ |e.conf.val - Min.min (6 / 5 * meanQ ((first :: rest).map (fun a => a.conf.val))) 1| ≤ 1 / 2 ^ 18 := by
  have hall : ∀ a ∈ first :: rest, (∃ v hv, a.bpm = fin v hv ∧ 1 ≤ v ∧ v ≤ pow2 120) ∧ InUnit a.conf := by
    intro a ha
    obtain ⟨h1, h2, h3, -⟩ := outcome_range (hs ▸ ha)
    exact ⟨ordinary_val hr h1 h2, h3⟩
  have hlen : (first :: rest).length ≤ 3 := by
    have := successes_len (outs := outcomes M fft fuel spec sr minB maxB res)
    rw [hs] at this
    exact this
  have hlen2 : 2 ≤ (first :: rest).length := by
    rw [List.length_cons]
    have := List.length_pos_iff.2 h2
    omega
  have hself : (first.bpm - first.bpm).abs < 2 := by
    obtain ⟨⟨v, hv, e, -⟩, -⟩ := hall first (by simp)
    rw [e, sub_fin, sub_self]
    decide +kernel
  have hallb : (first :: rest).all (fun e => decide ((e.bpm - first.bpm).abs < 2)) = true := by
    rw [List.all_eq_true]
    intro a ha
    rcases List.mem_cons.1 ha with rfl | ha
    · exact decide_eq_true hself
    · exact decide_eq_true (hag a ha)
  have hc : MultiRes.combine (first :: rest) = .ok ⟨F32.sum ((first :: rest).map Period.Est.bpm) / F32.ofNat (first :: rest).length,
        F32.min (F32.sum ((first :: rest).map Period.Est.conf) / F32.ofNat (first :: rest).length * 1.2) 1, (first :: rest).length⟩ := by
    rcases rest with _ | ⟨b, rest⟩
    · exact absurd rfl h2
    unfold MultiRes.combine
    dsimp only
    rw [if_pos hallb]
  have hm := mean_near (l := (first :: rest).map Period.Est.bpm) (by rwa [List.length_map]) (by rwa [List.length_map])
    (fun x hx => by obtain ⟨a, ha, rfl⟩ := List.mem_map.1 hx; exact (hall a ha).1)
  obtain ⟨hcn, hc0⟩ := conf_near (l := (first :: rest).map Period.Est.conf) (by rwa [List.length_map]) (by rwa [List.length_map])
    (fun x hx => by obtain ⟨a, ha, rfl⟩ := List.mem_map.1 hx; exact (hall a ha).2)
  rw [List.length_map, List.map_map] at hm hcn
  rw [List.length_map] at hc0
  refine ⟨_, (analysis_eq hn).trans ((congrArg MultiRes.combine hs).trans hc), rfl, ?_, ?_, ?_⟩
  · obtain ⟨v, hv, e, l, u⟩ := hm
    dsimp only
    rw [e]
    show |v - meanQ ((first :: rest).map (F32.val ∘ Period.Est.bpm))| ≤ meanQ ((first :: rest).map (F32.val ∘ Period.Est.bpm)) / 2 ^ 22
    generalize hq : meanQ ((first :: rest).map (F32.val ∘ Period.Est.bpm)) = q at *
    have h0 : 0 ≤ q := by
      rw [← hq]
      unfold meanQ
      refine _root_.div_nonneg (List.sum_nonneg ?_) (Nat.cast_nonneg _)
      intro x hx
      obtain ⟨a, ha, rfl⟩ := List.mem_map.1 hx
      obtain ⟨⟨v, hv, e, v1, -⟩, -⟩ := hall a ha
      show 0 ≤ a.bpm.val
      rw [e]
      show (0 : ℚ) ≤ v
      linarith
    have e1 : (1 - 1 / 2 ^ 22 : ℚ) ≤ (1 - pow2 (-24)) ^ 3 := by rw [pow2_eq]; norm_num
    have e2 : (1 + pow2 (-24)) ^ 3 ≤ (1 + 1 / 2 ^ 22 : ℚ) := by rw [pow2_eq]; norm_num
    have := mul_le_mul_of_nonneg_left e1 h0
    have := mul_le_mul_of_nonneg_left e2 h0
    rw [abs_le]
    constructor <;> linarith
  · exact ⟨F32.le_min hc0 (by decide +kernel), min_le_right (by decide +kernel)⟩
  · obtain ⟨v, hv, e, hb⟩ := hcn
    dsimp only
    rw [e, one_def]
    show |(F32.min (fin v hv) (fin 1 grid_one)).val - Min.min (6 / 5 * meanQ ((first :: rest).map (F32.val ∘ Period.Est.conf))) 1| ≤ _
    generalize meanQ ((first :: rest).map (F32.val ∘ Period.Est.conf)) = q at *
    have hmin : (F32.min (fin v hv) (fin 1 grid_one)).val = Min.min v 1 := by
      unfold F32.min
      rw [if_neg (by simp [F32.isNaN]), if_neg (by simp [F32.isNaN])]
      rcases _root_.le_total v 1 with h1 | h1
      · rw [if_neg (not_lt_of_le (fin_le_fin.2 h1)), min_eq_left h1]; rfl
      · rw [min_eq_right h1]
        split_ifs with h3
        · rfl
        · show v = 1
          rw [fin_lt_fin] at h3; linarith
    rw [hmin]
    have := abs_le.1 hb
    rw [abs_le]
    constructor
    · rcases _root_.le_total v 1 with h1 | h1 <;> rcases _root_.le_total (6 / 5 * q) 1 with h3 | h3 <;>
        simp only [h1, h3, min_eq_left, min_eq_right] <;> linarith
    · rcases _root_.le_total v 1 with h1 | h1 <;> rcases _root_.le_total (6 / 5 * q) 1 with h3 | h3 <;>
        simp only [h1, h3, min_eq_left, min_eq_right] <;> linarith

theorem maxByE_split {α} (key : α → F32) : ∀ (l : List α) (b : α), key b ≠ nan → (∀ x ∈ l, key x ≠ nan) →
    ∃ pre post, b :: l = pre ++ KeyDet.maxByE key b l :: post ∧ (∀ c ∈ pre, key c ≤ key (KeyDet.maxByE key b l)) ∧
      ∀ c ∈ post, key c < key (KeyDet.maxByE key b l)
  | [], b, _, _ => ⟨[], [], rfl, by simp, by simp⟩
  | x :: l, b, hb, h => by
    have hx := h x (by simp)
    have hl : ∀ y ∈ l, key y ≠ nan := fun y hy => h y (by simp [hy])
    by_cases hc : key x < key b
    · have e : KeyDet.maxByE key b (x :: l) = KeyDet.maxByE key b l := by
        unfold KeyDet.maxByE; rw [List.foldl_cons, if_pos hc]
      rw [e]
      obtain ⟨pre, post, he, h1, h2⟩ := maxByE_split key l b hb hl
      generalize KeyDet.maxByE key b l = m at *
      rcases pre with _ | ⟨a, pre⟩
      · rw [List.nil_append, List.cons.injEq] at he
        refine ⟨[], x :: post, by rw [List.nil_append, ← he.1, ← he.2], by simp, ?_⟩
        intro c hcm
        rcases List.mem_cons.1 hcm with rfl | hcm
        · rw [← he.1]; exact hc
        · exact h2 c hcm
      · rw [List.cons_append, List.cons.injEq] at he
        refine ⟨a :: x :: pre, post, by rw [he.1, he.2]; rfl, ?_, h2⟩
        intro c hcm
        have hbm := h1 a (by simp)
        rcases List.mem_cons.1 hcm with rfl | hcm
        · exact hbm
        · rcases List.mem_cons.1 hcm with rfl | hcm
          · exact F32.le_trans (F32.le_of_lt hc) (he.1 ▸ hbm)
          · exact h1 c (by simp [hcm])
    · have e : KeyDet.maxByE key b (x :: l) = KeyDet.maxByE key x l := by
        unfold KeyDet.maxByE; rw [List.foldl_cons, if_neg hc]
      rw [e]
      obtain ⟨pre, post, he, h1, h2⟩ := maxByE_split key l x hx hl
      refine ⟨b :: pre, post, by rw [he]; rfl, ?_, h2⟩
      intro c hcm
      rcases List.mem_cons.1 hcm with rfl | hcm
      · exact F32.le_trans (F32.le_of_not_lt hb hx hc) (KeyDet.maxByE_max key l x hx hl).1
      · exact h1 c hcm

theorem unit_09 {x : F32} (h : InUnit x) : InUnit (x * 0.9) ∧ |(x * 0.9).val - 9 / 10 * x.val| ≤ 1 / 2 ^ 20 := by
  obtain ⟨g9, e9⟩ : ∃ g, (0.9 : F32) = fin (0.9 : F32).val g := ⟨by decide +kernel, by decide +kernel⟩
  have b9 : |(0.9 : F32).val - 9 / 10| ≤ 1 / 2 ^ 23 := by decide +kernel
  refine ⟨unit_mul h (by unfold InUnit; decide +kernel), ?_⟩
  obtain ⟨v, hv, rfl, v0, v1⟩ := bd_unit h
  rw [e9, mul_fin]
  generalize (0.9 : F32).val = w at *
  have hw := abs_le.1 b9
  have hb : |v * w - 9 / 10 * v| ≤ 1 / 2 ^ 23 := by
    rw [show v * w - 9 / 10 * v = v * (w - 9 / 10) by ring, _root_.abs_mul, abs_of_nonneg v0]
    calc v * |w - 9 / 10| ≤ 1 * (1 / 2 ^ 23) := mul_le_mul v1 b9 (abs_nonneg _) (by norm_num)
      _ = 1 / 2 ^ 23 := by norm_num
  obtain ⟨z, hz, e, hbz⟩ := abs_rnd hb (by
    have := abs_le.1 hb
    rw [abs_le]; constructor <;> linarith)
  rw [e]
  show |z - 9 / 10 * v| ≤ _
  exact le_trans hbz (by norm_num)

/-- **C25 (disagreement)**: if at least two resolutions answer and one of them is not within 2 BPM of the first, the result
is the answer with the highest confidence (the last one of several), with 0.9 times that confidence and agreement 1. -/
theorem C25_disagree (M : Libm) (fft : List F32 → ℕ → F32 × F32) (fuel : ℕ) (spec : List (List F32)) (sr : ℕ)
    (minB maxB res : F32) (first : Period.Est) (rest : List Period.Est)
    (hn : ∀ o ∈ outcomes M fft fuel spec sr minB maxB res, ¬ Crashed o)
    (hs : successes (outcomes M fft fuel spec sr minB maxB res) = first :: rest)
    (hag : ∃ a ∈ rest, ¬ (a.bpm - first.bpm).abs < 2) :
    ∃ e best pre post, MultiRes.analysis M fft fuel spec sr minB maxB res = .ok e ∧ first :: rest = pre ++ best :: post ∧
      (∀ c ∈ pre, c.conf ≤ best.conf) ∧ (∀ c ∈ post, c.conf < best.conf) ∧ e.bpm = best.bpm ∧ e.agreement = 1 ∧
      InUnit e.conf ∧ |e.conf.val - 9 / 10 * best.conf.val| ≤ 1 / 2 ^ 20 := by
  have hall : ∀ a ∈ first :: rest, InUnit a.conf := fun a ha => (outcome_range (hs ▸ ha)).2.2.1
  have hnn : ∀ a ∈ first :: rest, a.conf ≠ nan := fun a ha => ne_nan_right (hall a ha).1
  obtain ⟨pre, post, he, h1, h2⟩ := maxByE_split Period.Est.conf rest first (hnn _ (by simp)) (fun a ha => hnn a (by simp [ha]))
  have hbm : KeyDet.maxByE Period.Est.conf first rest ∈ first :: rest := by rw [he]; simp
  obtain ⟨a, ha, hna⟩ := hag
  have hc : MultiRes.combine (first :: rest) = .ok ⟨(KeyDet.maxByE Period.Est.conf first rest).bpm,
      (KeyDet.maxByE Period.Est.conf first rest).conf * 0.9, 1⟩ := by
    rcases rest with _ | ⟨b, rest⟩
    · simp at ha
    unfold MultiRes.combine
    dsimp only
    rw [if_neg]
    intro hcon
    rw [List.all_eq_true] at hcon
    exact hna (of_decide_eq_true (hcon a (by simp [ha])))
  obtain ⟨hu, hv⟩ := unit_09 (hall _ hbm)
  exact ⟨_, _, pre, post, (analysis_eq hn).trans ((congrArg MultiRes.combine hs).trans hc), he, h1, h2, rfl, rfl, hu, hv⟩

/-- **C25 (single answer)**: a single successful resolution is returned as it is. -/
theorem C25_single (M : Libm) (fft : List F32 → ℕ → F32 × F32) (fuel : ℕ) (spec : List (List F32)) (sr : ℕ)
    (minB maxB res : F32) (a : Period.Est)
    (hn : ∀ o ∈ outcomes M fft fuel spec sr minB maxB res, ¬ Crashed o)
    (hs : successes (outcomes M fft fuel spec sr minB maxB res) = [a]) :
    MultiRes.analysis M fft fuel spec sr minB maxB res = .ok a :=
  (analysis_eq hn).trans ((congrArg MultiRes.combine hs).trans rfl)

theorem meanQ_between {l : List ℚ} (hne : l ≠ []) {lo hi : ℚ} (h : ∀ x ∈ l, lo ≤ x ∧ x ≤ hi) :
    lo ≤ meanQ l ∧ meanQ l ≤ hi := by
  have hpos : (0 : ℚ) < l.length := by exact_mod_cast List.length_pos_iff.2 hne
  have h1 : l.length * lo ≤ l.sum := by
    have := List.card_nsmul_le_sum l lo (fun x hx => (h x hx).1)
    rwa [nsmul_eq_mul] at this
  have h2 : l.sum ≤ l.length * hi := by
    have := List.sum_le_card_nsmul l hi (fun x hx => (h x hx).2)
    rwa [nsmul_eq_mul] at this
  unfold meanQ
  constructor
  · rw [le_div_iff₀ hpos]; linarith
  · rw [div_le_iff₀ hpos]; linarith

/-- **C25 (span)**, partial: the BPM is within the span of the individual estimates up to a relative error of 2^-22.  The
claim without the rounding error is false (`C25_violated`). -/
theorem C25_span_partial (M : Libm) (fft : List F32 → ℕ → F32 × F32) (fuel : ℕ) (spec : List (List F32)) (sr : ℕ)
    (minB maxB res : F32) (hr : OrdinaryRange minB maxB) (e : Period.Est) (lo hi : ℚ)
    (h : MultiRes.analysis M fft fuel spec sr minB maxB res = .ok e)
    (hb : ∀ a ∈ successes (outcomes M fft fuel spec sr minB maxB res), lo ≤ a.bpm.val ∧ a.bpm.val ≤ hi) :
    lo - |lo| / 2 ^ 22 ≤ e.bpm.val ∧ e.bpm.val ≤ hi + |hi| / 2 ^ 22 := by
  have hn : ∀ o ∈ outcomes M fft fuel spec sr minB maxB res, ¬ Crashed o := by
    intro o ho hc
    have := (C25_success M fft fuel spec sr minB maxB res).2 ⟨o, ho, hc⟩
    rw [h] at this
    rcases this with h' | h' <;> cases h'
  have l0 := abs_nonneg lo
  have h0 := abs_nonneg hi
  rcases hS : successes (outcomes M fft fuel spec sr minB maxB res) with _ | ⟨first, rest⟩
  · have := analysis_eq hn
    rw [h, hS] at this
    cases this
  rw [hS] at hb
  by_cases hag : ∀ a ∈ rest, (a.bpm - first.bpm).abs < 2
  · rcases rest with _ | ⟨b, rest⟩
    · have := C25_single M fft fuel spec sr minB maxB res first hn hS
      rw [h] at this
      cases this
      have := hb e (by simp)
      constructor <;> linarith [this.1, this.2]
    · obtain ⟨e', h', -, hm, -⟩ := C25_agree M fft fuel spec sr minB maxB res hr first _ hn hS (by simp) hag
      rw [h] at h'
      cases h'
      have := meanQ_between (l := (first :: b :: rest).map (fun a => a.bpm.val)) (by simp) (lo := lo) (hi := hi) (by
        intro x hx
        obtain ⟨a, ha, rfl⟩ := List.mem_map.1 hx
        exact hb a ha)
      generalize meanQ ((first :: b :: rest).map (fun a => a.bpm.val)) = q at *
      have hq : 0 ≤ q := by
        have : 0 ≤ q / 2 ^ 22 := le_trans (abs_nonneg _) hm
        linarith
      have hm := abs_le.1 hm
      have hhi : |hi| = hi := abs_of_nonneg (by linarith)
      constructor
      · rcases _root_.le_total 0 lo with h1 | h1
        · rw [abs_of_nonneg h1]; linarith
        · linarith
      · rw [hhi]; linarith
  · push Not at hag
    obtain ⟨e', best, pre, post, h', he, -, -, hbpm, -⟩ := C25_disagree M fft fuel spec sr minB maxB res first rest hn hS (by
      obtain ⟨a, ha, hna⟩ := hag
      exact ⟨a, ha, hna⟩)
    rw [h] at h'
    cases h'
    have := hb best (by rw [he]; simp)
    rw [hbpm]
    constructor <;> linarith [this.1, this.2]

/-- **C25 (totality)**: on ordinary inputs all three resolutions answer, so the analysis succeeds. -/
theorem C25_total (M : Libm) (fft : List F32 → ℕ → F32 × F32) (spec : List (List F32)) (sr : ℕ) (minB maxB res : F32)
    (hM : LnSane M) (hf : FftTame M fft) (hp : ∀ hop ∈ [256, 512, 1024], SaneParams ⟨sr, hop, minB, maxB, res⟩)
    (hs : PlainSpec spec) :
    ∃ N e, ∀ fuel, N ≤ fuel → MultiRes.analysis M fft fuel spec sr minB maxB res = .ok e := by
  obtain ⟨N1, a, h1, -⟩ := C21_succeeds M fft spec ⟨sr, 256, minB, maxB, res⟩ none hM hf (hp _ (by simp)) hs (fun c h => by cases h)
  obtain ⟨N2, b, h2, -⟩ := C21_succeeds M fft spec ⟨sr, 512, minB, maxB, res⟩ none hM hf (hp _ (by simp)) hs (fun c h => by cases h)
  obtain ⟨N3, c, h3, -⟩ := C21_succeeds M fft spec ⟨sr, 1024, minB, maxB, res⟩ none hM hf (hp _ (by simp)) hs (fun c h => by cases h)
  obtain ⟨e, he⟩ := (combine_ok [a, b, c]).2 (by simp)
  refine ⟨N1 + N2 + N3, e, fun fuel hfu => ?_⟩
  have ho : outcomes M fft fuel spec sr minB maxB res = [.ok a, .ok b, .ok c] := by
    unfold outcomes
    rw [h1 fuel (by omega), h2 fuel (by omega), h3 fuel (by omega)]
  rw [analysis_eq, ho]
  · exact he
  · rw [ho]
    intro o h hc
    simp only [List.mem_cons, List.not_mem_nil, or_false] at h
    rcases h with rfl | rfl | rfl <;> rcases hc with hc | hc <;> cases hc

example : ∀ hop ∈ [256, 512, 1024], SaneParams ⟨44100, hop, 60, 180, 0.5⟩ := by
  intro hop h
  simp only [List.mem_cons, List.not_mem_nil, or_false] at h
  rcases h with rfl | rfl | rfl <;> constructor <;> decide +kernel

/-! ### Concrete runs -/

/-- three agreeing resolutions: only 43.1 BPM is inside the search range -/
theorem agree_run : outcomes rampLibm clipFft 20 beatSpec 736 43.1 43.2 1 = 
    [.ok ⟨43.1, 0, 2⟩, .ok ⟨43.1, 1, 2⟩, .ok ⟨43.1, 1, 1⟩] := by
  decide +kernel

/-- **C25 is violated by rounding**: three resolutions answering exactly 43.1 BPM, the lower end of the search range, give a
result below it. -/
theorem C25_violated : ∃ e, MultiRes.analysis rampLibm clipFft 20 beatSpec 736 43.1 43.2 1 = .ok e ∧
    (∀ a ∈ successes (outcomes rampLibm clipFft 20 beatSpec 736 43.1 43.2 1), a.bpm = 43.1) ∧ e.bpm < 43.1 := by
  refine ⟨⟨(43.1 + 43.1 + 43.1) / 3, 2 / 3 * 1.2, 3⟩, ?_, ?_, by decide +kernel⟩
  · rw [analysis_eq, agree_run]
    · decide +kernel
    · rw [agree_run]
      intro o h hc
      simp only [List.mem_cons, List.not_mem_nil, or_false] at h
      rcases h with rfl | rfl | rfl <;>
      rcases hc with hc | hc <;> cases hc
  · rw [agree_run]; decide +kernel

/-- two resolutions say 60 BPM, the third 75: the first, most confident one is reported with a reduced confidence -/
example : (∀ o ∈ outcomes rampLibm clipFft 20 (beatSpec ++ beatSpec) 1024 50 130 35, o.isOk = true) ∧
    (successes (outcomes rampLibm clipFft 20 (beatSpec ++ beatSpec) 1024 50 130 35)).map Period.Est.bpm = [60, 60, 75] ∧
    (match MultiRes.analysis rampLibm clipFft 20 (beatSpec ++ beatSpec) 1024 50 130 35 with
      | .ok e => decide (e.bpm = 60) && decide (0.08 < e.conf) && decide (e.conf < 0.1) && decide (e.agreement = 1)
      | _ => false) = true := by
  decide +kernel

end Verif.Props
