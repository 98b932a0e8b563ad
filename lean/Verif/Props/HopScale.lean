/-
What the three passes of `multi_resolution_analysis` measure (C77): src/features/period/multi_resolution.rs lines 97-108
hands the same frames to the tempogram with three different hop sizes.
-/
import Verif.Props.MultiRes
import Verif.F32.Scale

namespace Verif.Props
open Verif F32 Tempogram

/-! ### Specification -/

/-- `y` is exactly twice `x` -/
def Twice (x y : F32) : Prop := ∃ v hv hv', x = fin v hv ∧ y = fin (2 * v) hv'

/-- the same strengths at tempos twice as high -/
def TwiceTempo (t t' : List (F32 × F32)) : Prop :=
  List.Forall₂ (fun a b => Twice a.1 b.1 ∧ a.2 = b.2) t t'

/-! ### Doubling -/

theorem p1 : pow2 1 = 2 := by rw [pow2_eq]; norm_num

theorem twice_of {q : ℚ} (h : q = 0 ∨ pow2 (-126) ≤ |q|) (hb : |q| ≤ pow2 126) : Twice (rnd q) (rnd (2 * q)) := by
  have h2 : rndQ (2 * q) = 2 * rndQ q := by
    rcases h with rfl | h
    · simp [show rndQ 0 = 0 from grid_zero.1]
    · have := rndQ_scale h (k := 1) (by norm_num)
      rwa [p1] at this
  have e127 : pow2 127 = 2 * pow2 126 := by rw [pow2_eq, pow2_eq]; norm_num
  obtain ⟨h1, e1, -⟩ := rnd_finite_of_abs_le (g_p 126 (by norm_num) (by norm_num)) hb
  obtain ⟨h3, e3, -⟩ := rnd_finite_of_abs_le (q := 2 * q) (g_p 127 (by norm_num) (by norm_num))
    (by rw [_root_.abs_mul, e127, abs_of_pos (by norm_num : (0 : ℚ) < 2)]; linarith)
  exact ⟨rndQ q, h1, h2 ▸ h3, e1, by rw [e3]; congr 1⟩

theorem twice_add {x x' y y' : F32} (hx : Twice x x') (hy : Twice y y') (hbx : |x.val| ≤ pow2 120) (hby : |y.val| ≤ pow2 120) :
    Twice (x + y) (x' + y') := by
  obtain ⟨v, hv, hv', rfl, rfl⟩ := hx
  obtain ⟨w, hw, hw', rfl, rfl⟩ := hy
  rw [add_fin, add_fin]
  replace hbx : |v| ≤ pow2 120 := hbx
  replace hby : |w| ≤ pow2 120 := hby
  have e121 : pow2 121 = 2 * pow2 120 := by rw [pow2_eq, pow2_eq]; norm_num
  have e122 : pow2 122 = 4 * pow2 120 := by rw [pow2_eq, pow2_eq]; norm_num
  have hs : |v + w| ≤ 2 * pow2 120 := le_trans (abs_add_le _ _) (by linarith)
  have h2 : rndQ (2 * v + 2 * w) = 2 * rndQ (v + w) := by
    have := rndQ_scale_add hv.1 hw.1 (k := 1) (by norm_num)
    rw [p1] at this
    rw [← _root_.mul_add]; exact this
  obtain ⟨h1, e1, -⟩ := rnd_finite_of_abs_le (g_p 121 (by norm_num) (by norm_num)) (e121 ▸ hs)
  obtain ⟨h3, e3, -⟩ := rnd_finite_of_abs_le (q := 2 * v + 2 * w) (g_p 122 (by norm_num) (by norm_num))
    (by rw [← _root_.mul_add, _root_.abs_mul, e122, abs_of_pos (by norm_num : (0 : ℚ) < 2)]; linarith)
  exact ⟨rndQ (v + w), h1, h2 ▸ h3, e1, by rw [e3]; congr 1⟩

theorem twice_div {x x' y y' : F32} (hx : Twice x x') (hy : Twice y y') (h0 : y.val ≠ 0) : x' / y' = x / y := by
  obtain ⟨v, hv, hv', rfl, rfl⟩ := hx
  obtain ⟨w, hw, hw', rfl, rfl⟩ := hy
  replace h0 : w ≠ 0 := h0
  rw [div_fin h0, div_fin (by simpa using h0), mul_div_mul_left _ _ (by norm_num)]

theorem twice_le {x x' y y' : F32} (hx : Twice x x') (hy : Twice y y') : x' ≤ y' ↔ x ≤ y := by
  obtain ⟨v, hv, hv', rfl, rfl⟩ := hx
  obtain ⟨w, hw, hw', rfl, rfl⟩ := hy
  rw [fin_le_fin, fin_le_fin]
  constructor <;> intro h <;> linarith

/-- the frame rate at half the hop size -/
theorem rate_twice {sr hop : ℕ} (hs : 0 < sr) (hs' : sr ≤ 2 ^ 32) (hh : 0 < hop) (hh' : hop < 2 ^ 23) :
    Twice (F32.ofNat sr / F32.ofNat (2 * hop)) (F32.ofNat sr / F32.ofNat hop) ∧
    ∃ v hv, F32.ofNat sr / F32.ofNat (2 * hop) = fin v hv ∧ 1 / 2 ^ 25 ≤ v ∧ v ≤ 2 ^ 33 := by
  have hq : (0 : ℚ) < hop := by exact_mod_cast hh
  have hq' : (hop : ℚ) ≤ 2 ^ 23 := by exact_mod_cast hh'.le
  have hq1 : (1 : ℚ) ≤ hop := by exact_mod_cast hh
  obtain ⟨s, hsv, es, s1, s2⟩ : ∃ s hs, F32.ofNat sr = fin s hs ∧ 1 ≤ s ∧ s ≤ 2 ^ 32 := by
    have l : (1 : F32) ≤ F32.ofNat sr := one_le_ofNat hs
    have u : F32.ofNat sr ≤ fin (2 ^ 32 : ℚ) (by have := g_p 32 (by norm_num) (by norm_num); rwa [show pow2 32 = 2 ^ 32 by rw [pow2_eq]; norm_num] at this) :=
      rnd_le_fin (by exact_mod_cast hs')
    rw [one_def] at l
    obtain ⟨v, hv, e, l', u'⟩ := between_cases l u
    exact ⟨v, hv, e, l', u'⟩
  obtain ⟨g1, e1⟩ : ∃ g, F32.ofNat hop = fin hop g := ⟨grid_nat (by omega), rnd_val _⟩
  obtain ⟨g2, e2⟩ : ∃ g, F32.ofNat (2 * hop) = fin ((2 * hop : ℕ) : ℚ) g := ⟨grid_nat (by omega), rnd_val _⟩
  rw [es, e1, e2, div_fin (by positivity), div_fin (by positivity)]
  have hc : ((2 * hop : ℕ) : ℚ) = 2 * hop := by push_cast; ring
  rw [hc, show s / (hop : ℚ) = 2 * (s / (2 * hop)) by field_simp]
  have hl : 1 / 2 ^ 24 ≤ s / (2 * hop) := by
    rw [div_le_div_iff₀ (by norm_num) (by positivity)]; nlinarith
  have hu : s / (2 * hop) ≤ 2 ^ 32 := by
    rw [div_le_iff₀ (by positivity)]; nlinarith
  have h0 : 0 < s / (2 * hop) := by linarith [show (0 : ℚ) < 1 / 2 ^ 24 by norm_num]
  refine ⟨twice_of (Or.inr ?_) ?_, ?_⟩
  · rw [abs_of_pos h0]; exact le_trans (by rw [pow2_eq]; norm_num) hl
  · rw [abs_of_pos h0]; exact le_trans hu (by rw [pow2_eq]; norm_num)
  · have a := g_p (-24) (by norm_num) (by norm_num)
    have b := g_p 32 (by norm_num) (by norm_num)
    obtain ⟨hv, e, l, u⟩ := rnd_between (x := s / (2 * hop)) a b (by rw [pow2_eq]; norm_num at hl ⊢; exact hl)
      (by rw [pow2_eq]; norm_num at hu ⊢; exact hu)
    refine ⟨_, hv, e, le_trans ?_ l, le_trans u ?_⟩ <;> rw [pow2_eq] <;> norm_num

/-- twice the tempo at half the hop size is the same number of frames -/
theorem lag_same {sr hop : ℕ} (hs : 0 < sr) (hs' : sr ≤ 2 ^ 32) (hh : 0 < hop) (hh' : hop < 2 ^ 23) {b b' : F32}
    (h : Twice b b') (h1 : 1 ≤ b) (h2 : b ≤ rnd (pow2 120)) : lagAt sr hop b' = lagAt sr (2 * hop) b := by
  have hb := ordinary_val (minB := 1) (maxB := rnd (pow2 120)) ⟨by decide +kernel, by decide +kernel⟩ h1 h2
  obtain ⟨v, hv, rfl, v1, v2⟩ := hb
  obtain ⟨_, _, hv', e, rfl⟩ := h
  cases e
  obtain ⟨g60, e60⟩ : ∃ g, (60 : F32) = fin 60 g := ⟨by decide +kernel, by decide +kernel⟩
  unfold lagAt
  have ht : Twice (fin v hv / 60) (fin (2 * v) hv' / 60) := by
    rw [e60, div_fin (by norm_num), div_fin (by norm_num), show 2 * v / 60 = 2 * (v / 60) by ring]
    have hp : 0 < v / 60 := by linarith
    refine twice_of (Or.inr ?_) ?_
    · rw [abs_of_pos hp]; exact le_trans (by rw [pow2_eq]; norm_num) (show 1 / 60 ≤ v / 60 by linarith)
    · rw [abs_of_pos hp]
      have e : pow2 126 = 64 * pow2 120 := by rw [pow2_eq, pow2_eq]; norm_num
      have := pow2_pos 120
      rw [e]; linarith
  rw [twice_div (rate_twice hs hs' hh hh').1 ht]
  rw [e60, div_fin (by norm_num)]
  obtain ⟨hw, e, l, -⟩ := rnd_between (x := v / 60) (g_p (-6) (by norm_num) (by norm_num)) (g_p 120 (by norm_num) (by norm_num))
    (by rw [pow2_eq]; norm_num; linarith) (by have := pow2_pos 120; linarith)
  rw [e]
  show rndQ (v / 60) ≠ 0
  have := pow2_pos (-6)
  linarith

/-! ### The tempograms -/

theorem insertBy_rel {α β} {r : α → β → Prop} {le : α → α → Bool} {le' : β → β → Bool}
    (hle : ∀ a b a' b', r a a' → r b b' → le a b = le' a' b') {x : α} {x' : β} (hx : r x x') :
    ∀ {l : List α} {l' : List β}, List.Forall₂ r l l' → List.Forall₂ r (insertBy le x l) (insertBy le' x' l')
  | _, _, .nil => .cons hx .nil
  | _, _, .cons (a := a) (b := a') (l₁ := l) (l₂ := l') ha hl => by
    unfold insertBy
    rw [hle x a x' a' hx ha]
    split_ifs
    · exact .cons hx (.cons ha hl)
    · exact .cons ha (insertBy_rel hle hx hl)

theorem sortDesc_rel {α β} {r : α → β → Prop} {key : α → F32} {key' : β → F32} (hk : ∀ a a', r a a' → key a = key' a')
    {l : List α} {l' : List β} (h : List.Forall₂ r l l') : List.Forall₂ r (sortDesc key l) (sortDesc key' l') := by
  unfold sortDesc rsort
  induction h with
  | nil => exact .nil
  | cons ha _ ih =>
    exact insertBy_rel (fun a b a' b' h1 h2 => by rw [hk a a' h1, hk b b' h2]) ha ih

/-- the same answer, up to the tempos being twice as high -/
def SameTwice (r r' : R (List (F32 × F32))) : Prop :=
  match r, r' with
  | .ok t, .ok t' => TwiceTempo t t'
  | .error f, .error f' => f = f'
  | _, _ => False

theorem acLoop_twice {nov : List F32} {sr hop : ℕ} (hs : 0 < sr) (hs' : sr ≤ 2 ^ 32) (hh : 0 < hop) (hh' : hop < 2 ^ 23)
    {maxB maxB' res res' : F32} (hM : Twice maxB maxB') (hR : Twice res res') (hm : maxB ≤ rnd (pow2 120)) (hr : ¬ res ≤ 0)
    (hr' : res ≤ rnd (pow2 120)) : ∀ (fuel : ℕ) (b b' : F32), Twice b b' → 1 ≤ b →
    SameTwice (acLoop nov (F32.ofNat sr / F32.ofNat (2 * hop)) maxB res fuel b)
      (acLoop nov (F32.ofNat sr / F32.ofNat hop) maxB' res' fuel b') := by
  intro fuel
  induction fuel with
  | zero =>
    intro b b' hb h1
    unfold acLoop
    by_cases h : b ≤ maxB
    · rw [if_pos h, if_pos ((twice_le hb hM).2 h)]; rfl
    · rw [if_neg h, if_neg (fun h' => h ((twice_le hb hM).1 h'))]; exact .nil
  | succ fuel ih =>
    intro b b' hb h1
    unfold acLoop
    by_cases h : b ≤ maxB
    · rw [if_pos h, if_pos ((twice_le hb hM).2 h), acStrength_eq, acStrength_eq,
        lag_same hs hs' hh hh' hb h1 (F32.le_trans h hm)]
      split_ifs with hp
      · rfl
      · rw [R.ok_bind, R.ok_bind]
        obtain ⟨v, hv, rfl, v1, v2⟩ := ordinary_val (minB := 1) (maxB := rnd (pow2 120)) ⟨by decide +kernel, by decide +kernel⟩
          h1 (F32.le_trans h hm)
        obtain ⟨w, hw, hw', rfl, rfl⟩ := hR
        have w0 : 0 < w := by
          rw [zero_def, fin_le_fin] at hr
          exact not_le.1 hr
        have w1 : w ≤ pow2 120 := by
          rw [rnd_val (g_p 120 (by norm_num) (by norm_num)), fin_le_fin] at hr'
          exact hr'
        have ht := twice_add hb (⟨w, hw, hw', rfl, rfl⟩ : Twice (fin w hw) (fin (2 * w) hw'))
          (by show |v| ≤ _; rw [abs_of_nonneg (by linarith)]; exact v2) (by show |w| ≤ _; rw [abs_of_pos w0]; exact w1)
        have h1' : 1 ≤ fin v hv + fin w hw := by
          rw [add_fin, one_def]
          exact fin_le_rnd (by linarith)
        have := ih _ _ ht h1'
        revert this
        unfold SameTwice
        generalize acLoop nov (F32.ofNat sr / F32.ofNat (2 * hop)) maxB (fin w hw) fuel (fin v hv + fin w hw) = r
        generalize acLoop nov (F32.ofNat sr / F32.ofNat hop) maxB' (fin (2 * w) hw') fuel (b' + fin (2 * w) hw') = r'
        intro this
        rcases r with f | t <;> rcases r' with f' | t'
        · exact this
        · exact this
        · exact this
        · exact .cons ⟨hb, rfl⟩ this
    · rw [if_neg h, if_neg (fun h' => h ((twice_le hb hM).1 h'))]; exact .nil

/-- a search range given twice, the second with all tempos doubled -/
structure RangeTwice (minB maxB res minB' maxB' res' : F32) : Prop where
  range : OrdinaryRange minB maxB
  step : res ≤ rnd (pow2 120)
  min : Twice minB minB'
  max : Twice maxB maxB'
  res : Twice res res'

/-- **C77 is violated by the autocorrelation pass**: run over the same novelty curve with half the hop size, it finds the same
strengths at tempos exactly twice as high. -/
theorem C77_violated_autocorr (fuel : ℕ) (nov : List F32) (sr hop : ℕ) (minB maxB res minB' maxB' res' : F32)
    (hs : 0 < sr) (hs' : sr ≤ 2 ^ 32) (hh : 0 < hop) (hh' : hop < 2 ^ 23)
    (h : RangeTwice minB maxB res minB' maxB' res') :
    SameTwice (acTempogram fuel nov sr (2 * hop) minB maxB res) (acTempogram fuel nov sr hop minB' maxB' res') := by
  have hz : ∀ {x x' : F32}, Twice x x' → (x' ≤ 0 ↔ x ≤ 0) := by
    intro x x' hx
    exact twice_le hx (⟨0, grid_zero, by simpa using grid_zero, zero_def, by rw [zero_def]; congr 1; norm_num⟩ : Twice 0 0)
  unfold acTempogram
  simp only [hz h.min, twice_le h.max h.min, hz h.res]
  by_cases h1 : nov = []
  · rw [if_pos h1, if_pos h1]; rfl
  have n1 : ¬ sr = 0 := by omega
  have n2 : ¬ 2 * hop = 0 := by omega
  have n3 : ¬ hop = 0 := by omega
  rw [if_neg h1, if_neg h1, if_neg n1, if_neg n1, if_neg n2, if_neg n3]
  by_cases h4 : minB ≤ 0 ∨ maxB ≤ minB
  · rw [if_pos h4, if_pos h4]; rfl
  rw [if_neg h4, if_neg h4]
  by_cases h5 : res ≤ 0
  · rw [if_pos h5, if_pos h5]; rfl
  rw [if_neg h5, if_neg h5]
  have := acLoop_twice (nov := nov) hs hs' hh hh' h.max h.res h.range.2 h5 h.step fuel minB minB' h.min h.range.1
  revert this
  unfold SameTwice
  generalize acLoop nov (F32.ofNat sr / F32.ofNat (2 * hop)) maxB res fuel minB = r
  generalize acLoop nov (F32.ofNat sr / F32.ofNat hop) maxB' res' fuel minB' = r'
  intro this
  rcases r with f | t <;> rcases r' with f' | t'
  · exact this
  · exact this
  · exact this
  · exact sortDesc_rel (fun a a' h => h.2) this

/-- doubled values that stay in the normal range, away from overflow -/
def Twice' (x x' : F32) (A B : ℤ) : Prop :=
  ∃ v hv hv', x = fin v hv ∧ x' = fin (2 * v) hv' ∧ (v = 0 ∨ pow2 A ≤ v) ∧ 0 ≤ v ∧ v ≤ pow2 B

theorem twice'_rnd {q : ℚ} {A B : ℤ} (h : q = 0 ∨ pow2 A ≤ q) (h0 : 0 ≤ q) (hb : q ≤ pow2 B) (hA : -126 ≤ A) (hA' : A < 128)
    (hB : B ≤ 126) (hB' : -126 ≤ B) : Twice' (rnd q) (rnd (2 * q)) A B := by
  obtain ⟨v, hv, hv', e, e'⟩ := twice_of (q := q) (by
    rcases h with h | h
    · exact Or.inl h
    · right; rw [abs_of_nonneg h0]; exact le_trans (pow2_le hA) h) (by rw [abs_of_nonneg h0]; exact le_trans hb (pow2_le hB))
  have gA := g_p A (by omega) hA'
  have gB := g_p B (by omega) (by omega)
  have l0 : fin 0 grid_zero ≤ rnd q := fin_le_rnd h0
  have u0 : rnd q ≤ fin _ gB := rnd_le_fin hb
  rw [e, fin_le_fin] at l0 u0
  refine ⟨v, hv, hv', e, e', ?_, l0, u0⟩
  rcases h with rfl | h
  · left
    rw [rnd_val grid_zero] at e
    cases e; rfl
  · right
    have l := fin_le_rnd (hv := gA) h
    rw [e, fin_le_fin] at l
    exact l

theorem nat_val (n : ℕ) (h : n ≤ 2 ^ 63) : ∃ v hv, F32.ofNat n = fin v hv ∧ 0 ≤ v ∧ v ≤ pow2 63 ∧ (v = 0 ∨ 1 ≤ v) ∧ (0 < n → 1 ≤ v) := by
  have g63 := g_p 63 (by norm_num) (by norm_num)
  have u : F32.ofNat n ≤ fin _ g63 := rnd_le_fin (by rw [pow2_eq]; exact_mod_cast h)
  have l : fin 0 grid_zero ≤ F32.ofNat n := fin_le_rnd (by positivity)
  obtain ⟨v, hv, e, l', u'⟩ := between_cases l u
  refine ⟨v, hv, e, l', u', ?_⟩
  rcases Nat.eq_zero_or_pos n with rfl | hn
  · refine ⟨Or.inl ?_, by omega⟩
    have : (fin v hv : F32) = fin 0 grid_zero := by rw [← e]; exact rnd_val _
    cases this; rfl
  · have l1 : (1 : F32) ≤ F32.ofNat n := one_le_ofNat hn
    rw [e, one_def, fin_le_fin] at l1
    exact ⟨Or.inr l1, fun _ => l1⟩

/-- **C77 is violated by the FFT pass**: run over the same novelty curve with half the hop size, it finds the same powers at
tempos exactly twice as high. -/
theorem C77_violated_fft (M : Libm) (fft : List F32 → ℕ → F32 × F32) (nov : List F32) (sr hop : ℕ)
    (minB maxB minB' maxB' : F32) (hs : 0 < sr) (hs' : sr ≤ 2 ^ 32) (hh : 0 < hop) (hh' : hop < 2 ^ 23)
    (hl : Period.nextPow2 nov.length ≤ 2 ^ 63) (hmin : Twice minB minB') (hmax : Twice maxB maxB') :
    SameTwice (fftTempogram M fft nov sr (2 * hop) minB maxB) (fftTempogram M fft nov sr hop minB' maxB') := by
  have hz : ∀ {x x' : F32}, Twice x x' → (x' ≤ 0 ↔ x ≤ 0) := by
    intro x x' hx
    exact twice_le hx (⟨0, grid_zero, by simpa using grid_zero, zero_def, by rw [zero_def]; congr 1; norm_num⟩ : Twice 0 0)
  unfold fftTempogram
  simp only [hz hmin, twice_le hmax hmin]
  by_cases h1 : nov = []
  · rw [if_pos h1, if_pos h1]; rfl
  have n1 : ¬ sr = 0 := by omega
  have n2 : ¬ 2 * hop = 0 := by omega
  have n3 : ¬ hop = 0 := by omega
  rw [if_neg h1, if_neg h1, if_neg n1, if_neg n1, if_neg n2, if_neg n3]
  by_cases h4 : minB ≤ 0 ∨ maxB ≤ minB
  · rw [if_pos h4, if_pos h4]; rfl
  rw [if_neg h4, if_neg h4]
  have hn : 0 < Period.nextPow2 nov.length := by unfold Period.nextPow2; positivity
  generalize Period.nextPow2 nov.length = size at *
  have hbpm : ∀ k, k < Nat.min (size / 2 + 1) size →
      Twice (F32.ofNat k * ((F32.ofNat sr / F32.ofNat (2 * hop)) / F32.ofNat size) * 60)
        (F32.ofNat k * ((F32.ofNat sr / F32.ofNat hop) / F32.ofNat size) * 60) := by
    intro k hk
    have hk : k < size := lt_of_lt_of_le hk (Nat.min_le_right _ _)
    obtain ⟨hr, v, hv, er, v1, v2⟩ := rate_twice hs hs' hh hh'
    obtain ⟨_, _, hv', e1, e2⟩ := hr
    rw [er] at e1
    cases e1
    obtain ⟨s, hs, es, -, s2, -, s3⟩ := nat_val size hl
    obtain ⟨z, hz, ez, z1, z2, z3, -⟩ := nat_val k (by omega)
    have s1 := s3 hn
    rw [er, e2, es, ez, div_fin (by linarith), div_fin (by linarith), show 2 * v / s = 2 * (v / s) by ring]
    have p63 : pow2 63 = 2 ^ 63 := by rw [pow2_eq]; norm_num
    have hv0 : (0 : ℚ) < v := by linarith [show (0 : ℚ) < 1 / 2 ^ 25 by norm_num]
    obtain ⟨w, hw, hw', ew, ew', w1, w0, w2⟩ := twice'_rnd (q := v / s) (A := -88) (B := 33) (Or.inr (by
        rw [pow2_eq, le_div_iff₀ (by linarith)]
        rw [p63] at s2
        calc _ ≤ (2 : ℚ) ^ (-88 : ℤ) * 2 ^ 63 := mul_le_mul_of_nonneg_left s2 (by positivity)
          _ ≤ v := by norm_num at v1 ⊢; exact v1)) (by positivity) (by
        rw [pow2_eq, div_le_iff₀ (by linarith)]
        norm_num at v2 ⊢
        nlinarith) (by norm_num) (by norm_num) (by norm_num) (by norm_num)
    rw [ew, ew', mul_fin, mul_fin, show z * (2 * w) = 2 * (z * w) by ring]
    obtain ⟨y, hy, hy', ey, ey', y1, y0, y2⟩ := twice'_rnd (q := z * w) (A := -88) (B := 96) (by
        rcases z3 with rfl | z3
        · left; ring
        · rcases w1 with rfl | w1
          · left; ring
          · right; nlinarith) (by positivity) (by
        rw [show (96 : ℤ) = 63 + 33 by norm_num, pow2_add]
        exact mul_le_mul z2 w2 w0 (le_of_lt (pow2_pos _))) (by norm_num) (by norm_num) (by norm_num) (by norm_num)
    obtain ⟨g60, e60⟩ : ∃ g, (60 : F32) = fin 60 g := ⟨by decide +kernel, by decide +kernel⟩
    rw [ey, ey', e60, mul_fin, mul_fin, show 2 * y * 60 = 2 * (y * 60) by ring]
    refine twice_of ?_ ?_
    · rcases y1 with rfl | y1
      · left; ring
      · right
        rw [abs_of_nonneg (by positivity)]
        have := pow2_le (show (-126 : ℤ) ≤ -88 by norm_num)
        have := pow2_pos (-88)
        linarith
    · rw [abs_of_nonneg (by positivity)]
      have : pow2 126 = 2 ^ 30 * pow2 96 := by rw [pow2_eq, pow2_eq]; norm_num
      have := pow2_pos 96
      nlinarith
  refine sortDesc_rel (fun a a' h => h.2) ?_
  generalize Nat.min (size / 2 + 1) size = n at *
  refine List.rel_filter (R := fun a b : F32 × F32 => Twice a.1 b.1 ∧ a.2 = b.2) ?_ ?_
  · rintro a b ⟨h, -⟩
    simp only [Bool.and_eq_true, decide_eq_true_eq]
    rw [twice_le hmin h, twice_le h hmax]
  · rw [List.forall₂_map_left_iff, List.forall₂_map_right_iff, List.forall₂_same]
    intro k hk
    exact ⟨hbpm k (List.mem_range.1 hk), rfl⟩

/-- ordinary search ranges are covered, and the scan over the second one runs -/
example : RangeTwice 60 90 0.5 120 180 1 ∧
    (acTempogram 100 [0, 1, 0, 0, 1, 0, 0, 1] 6 2 60 90 15).isOk = true ∧
    (acTempogram 100 [0, 1, 0, 0, 1, 0, 0, 1] 6 1 120 180 30).isOk = true := by
  refine ⟨⟨by unfold OrdinaryRange; decide +kernel, by decide +kernel, ?_, ?_, ?_⟩, by decide +kernel, by decide +kernel⟩
  · exact ⟨60, by decide +kernel, by decide +kernel, by decide +kernel, by decide +kernel⟩
  · exact ⟨90, by decide +kernel, by decide +kernel, by decide +kernel, by decide +kernel⟩
  · exact ⟨1 / 2, by decide +kernel, by decide +kernel, by decide +kernel, by decide +kernel⟩

/-- every third frame is a hit: the pass with hop 2 reports 60 BPM, the pass with hop 1 reports 120 BPM -/
example : (acTempogram 100 [0, 1, 0, 0, 1, 0, 0, 1] 6 2 60 90 15).map (fun t => (t.headD (0, 0)).1) = .ok 60 ∧
    (acTempogram 100 [0, 1, 0, 0, 1, 0, 0, 1] 6 1 90 180 30).map (fun t => (t.headD (0, 0)).1) = .ok 120 := by
  decide +kernel

end Verif.Props
