/-
Property theorem C121: a higher silence threshold trims no less
(src/preprocessing/silence.rs, `detect_and_trim`).
-/
import Verif.Props.Retrim
import Verif.Props.Stricter

namespace Verif.Props
open Verif Verif.Silence

/-- Silent frames `i .. j-1` extended to the left until the start or a loud frame. -/
theorem run_left {P : ℕ → Prop} {j : ℕ} : ∀ {i : ℕ}, (∀ k, i ≤ k → k < j → P k) →
    ∃ i', i' ≤ i ∧ (∀ k, i' ≤ k → k < j → P k) ∧ (i' = 0 ∨ ¬ P (i' - 1)) := by
  intro i
  induction i with
  | zero => intro h; exact ⟨0, Nat.le_refl _, h, .inl rfl⟩
  | succ i ih =>
    intro h
    by_cases hs : P i
    · obtain ⟨i', h1, h2⟩ := ih (fun k hk hk' => by
        rcases Nat.eq_or_lt_of_le hk with rfl | h'
        · exact hs
        · exact h k h' hk')
      exact ⟨i', by omega, h2⟩
    · exact ⟨i + 1, Nat.le_refl _, h, .inr (by simpa using hs)⟩

/-- The same to the right, up to the first index without the property. -/
theorem run_right {P : ℕ → Prop} {i j N : ℕ} (h : ∀ k, i ≤ k → k < j → P k) (hN : ∀ k, N ≤ k → ¬ P k) (hij : i ≤ j) :
    ∃ j', j ≤ j' ∧ (∀ k, i ≤ k → k < j' → P k) ∧ ¬ P j' := by
  classical
  have hex : ∃ m, ¬ P (j + m) := ⟨N, hN _ (by omega)⟩
  have hmin := fun m => Nat.find_min hex (m := m)
  have hj := Nat.find_spec hex
  generalize Nat.find hex = m at hmin hj
  refine ⟨j + m, by omega, fun k hk hk' => ?_, hj⟩
  rcases Nat.lt_or_ge k j with h' | h'
  · exact h k hk h'
  · have := not_not.1 (hmin (k - j) (by omega))
    rwa [Nat.add_sub_cancel' h'] at this

/-- The minimum duration in samples grows with the setting. -/
theorem min_samples_mono {m m' sr : ℕ} (h : m' ≤ m) (hs : sr ≠ 0) :
    (F32.ofNat m' / 1000 * F32.ofNat sr).toUsize ≤ (F32.ofNat m / 1000 * F32.ofNat sr).toUsize := by
  rcases Nat.eq_zero_or_pos m' with rfl | hm
  · have e0 : F32.ofNat 0 / 1000 = 0 := by decide +kernel
    have hz : (0 * F32.ofNat sr : F32).toUsize = 0 := by
      rcases F32.nonneg_cases (F32.ofNat_nonneg sr) with e | ⟨v, hv, e, h0⟩
      · rw [e]; decide +kernel
      · rw [e, F32.zero_def, F32.mul_fin, zero_mul, F32.rnd_zero]; decide +kernel
    rw [e0, hz]; exact Nat.zero_le _
  have hdiv : ∀ n : ℕ, 0 < n → F32.ofNat 1 / 1000 ≤ F32.ofNat n / 1000 := fun n hn => by
    refine F32.div_le_div_right (F32.ofNat_mono hn) (by decide +kernel) (by decide +kernel) ?_
    rcases F32.nonneg_cases (F32.ofNat_nonneg n) with e | ⟨v, hv, e, h0⟩
    · rw [e]; decide +kernel
    · rw [e, show (1000 : F32) = F32.fin 1000 (by decide +kernel) by decide +kernel, F32.div_fin (by norm_num)]
      exact F32.rnd_ne_nan _
  have hmul : ∀ n : ℕ, 0 < n → F32.ofNat n / 1000 * F32.ofNat sr ≠ F32.nan := fun n hn => by
    have h1 := F32.one_le_ofNat (Nat.pos_of_ne_zero hs)
    have h2 := F32.lt_of_lt_of_le (show (0 : F32) < F32.ofNat 1 / 1000 by decide +kernel) (hdiv n hn)
    generalize F32.ofNat n / 1000 = w at *
    have h3 := F32.lt_of_lt_of_le F32.zero_lt_one h1
    generalize F32.ofNat sr = v at *
    rcases F32.nonneg_cases (F32.le_of_lt h2) with rfl | ⟨w, hw, rfl, hw0⟩ <;>
    rcases F32.nonneg_cases (F32.le_of_lt h3) with rfl | ⟨v, hv, rfl, hv0⟩
    · decide +kernel
    · rw [F32.zero_def, F32.fin_lt_fin] at h3
      rw [F32.inf_mul_fin]; simp [h3.ne']
    · rw [F32.zero_def, F32.fin_lt_fin] at h2
      rw [F32.fin_mul_inf]; simp [h2.ne']
    · rw [F32.mul_fin]; exact F32.rnd_ne_nan _
  exact toUsize_mono (F32.mul_le_mul_of_nonneg_right
    (F32.div_le_div_right (F32.ofNat_mono h) (by decide +kernel) (F32.ne_nan_right (hdiv _ hm))
      (F32.ne_nan_right (hdiv _ (by omega)))) (F32.ofNat_nonneg _) (hmul _ hm) (hmul _ (by omega)))

/-- What a successful call says about its arguments. -/
theorem trim_ok_cases {M : Libm} {x y : List F32} {sr : ℕ} {det : Detector} {map : List (ℕ × ℕ)}
    (h : detectAndTrim M x sr det = .ok (y, map)) :
    (y = [] ∧ map = [] ∧ x = []) ∨ (x ≠ [] ∧ sr ≠ 0 ∧ 2 ≤ det.frameSize) := by
  by_cases h0 : x = []
  · subst h0
    have : y = [] ∧ map = [] := by simpa [detectAndTrim, eq_comm] using h
    exact .inl ⟨this.1, this.2, rfl⟩
  by_cases hs : sr = 0
  · simp [detectAndTrim, h0, hs] at h
  by_cases hf : 2 ≤ det.frameSize
  · exact .inr ⟨h0, hs, hf⟩
  exfalso
  unfold detectAndTrim at h
  rw [if_neg h0, if_neg hs] at h
  by_cases h1 : det.frameSize = 0
  · simp [h1] at h
  · have h2 : det.frameSize / 2 = 0 := by omega
    rw [if_neg h1] at h
    dsimp only at h
    rw [if_pos h2] at h
    simp at h

/-- `det'` is at least as eager as `det` to call audio silent: a threshold at least as high, a minimum duration at most as
long, the same frames. -/
def Keener (M : Libm) (det' det : Detector) : Prop :=
  M.powf 10 (det.thresholdDb / 20) ≤ M.powf 10 (det'.thresholdDb / 20) ∧
  det'.minDurationMs ≤ det.minDurationMs ∧ det'.frameSize = det.frameSize

/-- **C121 (silence map).** With a higher threshold or a shorter minimum duration, every silent region found before lies
inside one found now. -/
theorem C121_map (M : Libm) (x : List F32) (sr : ℕ) (det det' : Detector)
    (hk : Keener M det' det) {y y' : List F32} {map map' : List (ℕ × ℕ)}
    (h : detectAndTrim M x sr det = .ok (y, map)) (h' : detectAndTrim M x sr det' = .ok (y', map'))
    {s e : ℕ} (hm : (s, e) ∈ map) : ∃ s' e', (s', e') ∈ map' ∧ s' ≤ s ∧ e ≤ e' := by
  obtain ⟨hthr, hd, hf⟩ := hk
  obtain ⟨-, rfl, -⟩ | ⟨h0, hs, h2⟩ := trim_ok_cases h
  · simp at hm
  have hn := List.length_pos_iff.2 h0
  obtain ⟨i, j, hij, hall, -, hdur, rfl, he⟩ := (map_entry h0 hs h2 h s e).1 hm
  have hent := map_entry h0 hs (hf ▸ h2) h'
  rw [hf] at hent
  have hgrow : ∀ k, SilentFrame x det.frameSize (M.powf 10 (det.thresholdDb / 20)) k →
      SilentFrame x det.frameSize (M.powf 10 (det'.thresholdDb / 20)) k := fun k hk => F32.le_trans hk hthr
  generalize M.powf 10 (det'.thresholdDb / 20) = t' at hent hgrow
  obtain ⟨i', hi, hall1, hstart⟩ := run_left (P := fun k => IsFrame x.length det.frameSize k ∧ SilentFrame x det.frameSize t' k)
    (fun k hk hk' => ⟨(hall k hk hk').1, hgrow k (hall k hk hk').2⟩)
  obtain ⟨j', hj, hall2, hstop⟩ := run_right (N := x.length + 1) hall1 (fun k hk hP => by
    have h1 := isFrame_pos h2 hn hP.1
    have := Nat.le_mul_of_pos_right k (show 0 < det.frameSize / 2 by omega)
    omega) (by omega)
  have hstart' : i' = 0 ∨ ¬ SilentFrame x det.frameSize t' (i' - 1) := by
    rcases hstart with h | h
    · exact .inl h
    · exact .inr fun hq => h ⟨isFrame_down (hall2 i' (Nat.le_refl _) (by omega)).1 (by omega), hq⟩
  have hdur' : i' = 0 ∨ (F32.ofNat det'.minDurationMs / 1000 * F32.ofNat sr).toUsize ≤ (j' - i') * (det.frameSize / 2) := by
    rcases hdur with h | h
    · exact .inl (by omega)
    · exact .inr (Nat.le_trans (Nat.le_trans (min_samples_mono hd hs) h) (Nat.mul_le_mul_right _ (by omega)))
  have hle := Nat.mul_le_mul_right (det.frameSize / 2) hi
  by_cases hfj : IsFrame x.length det.frameSize j'
  · refine ⟨_, _, (hent _ _).2 ⟨i', j', by omega, hall2, hstart', hdur', rfl, .inr ⟨hfj, fun hq => hstop ⟨hfj, hq⟩, rfl⟩⟩, hle, ?_⟩
    rcases he with ⟨hnf, -⟩ | ⟨-, -, rfl⟩
    · exact absurd (isFrame_down hfj hj) hnf
    · exact Nat.mul_le_mul_right _ hj
  · refine ⟨_, _, (hent _ _).2 ⟨i', j', by omega, hall2, hstart', hdur', rfl, .inl ⟨hfj, rfl⟩⟩, hle, ?_⟩
    rcases he with ⟨-, rfl⟩ | ⟨hfr, -, rfl⟩
    · exact Nat.le_refl _
    · exact (isFrame_pos h2 hn hfr).le

/-- Two regions of an ordered map that share a start or an end are the same. -/
theorem region_unique {l : List (ℕ × ℕ)} (hp : l.Pairwise (fun r s => r.2 < s.1)) (hne : ∀ r ∈ l, r.1 < r.2)
    {r s : ℕ × ℕ} (hr : r ∈ l) (hs : s ∈ l) (h : r.1 = s.1 ∨ r.2 = s.2) : r = s := by
  induction l with
  | nil => simp at hr
  | cons a l ih =>
    rw [List.pairwise_cons] at hp
    have hne' : ∀ r ∈ l, r.1 < r.2 := fun r hr => hne r (List.mem_cons_of_mem _ hr)
    have ha := hne a (List.mem_cons_self ..)
    rcases List.mem_cons.1 hr with rfl | hr' <;> rcases List.mem_cons.1 hs with rfl | hs'
    · rfl
    · have := hp.1 s hs'; have := hne' s hs'; omega
    · have := hp.1 r hr'; have := hne' r hr'; omega
    · exact ih hp.2 hne' hr' hs'

/-- **C121.** With a higher silence threshold or a shorter minimum duration, what is kept is a piece of what was kept
before: nothing comes back. -/
theorem C121_trim (M : Libm) (x : List F32) (sr : ℕ) (det det' : Detector) (hk : Keener M det' det)
    {y y' : List F32} {map map' : List (ℕ × ℕ)}
    (h : detectAndTrim M x sr det = .ok (y, map)) (h' : detectAndTrim M x sr det' = .ok (y', map')) : y' <:+: y := by
  obtain ⟨rfl, -, rfl⟩ | ⟨h0, hs, h2⟩ := trim_ok_cases h'
  · exact List.nil_infix
  obtain ⟨-, -, rfl⟩ | ⟨-, -, h2'⟩ := trim_ok_cases h
  · exact absurd rfl h0
  have hmap := fun {s e} => C121_map M x sr det det' hk h h' (s := s) (e := e)
  obtain ⟨-, hb, -⟩ := C01_trim_contiguous M x sr det y map h
  obtain ⟨-, hb', hp'⟩ := C01_trim_contiguous M x sr det' y' map' h'
  have huniq := fun {r s} => region_unique hp' (fun r hr => (hb' r hr).1) (r := r) (s := s)
  obtain ⟨m1, a, b, e1, ha, hbb⟩ := trim_by_map M x sr det h0 hs h2'
  obtain ⟨m2, a', b', e2, ha', hbb'⟩ := trim_by_map M x sr det' h0 hs h2
  rw [h] at e1
  rw [h'] at e2
  simp only [Except.ok.injEq, Prod.mk.injEq] at e1 e2
  obtain ⟨rfl, rfl⟩ := e1
  obtain ⟨rfl, rfl⟩ := e2
  by_cases hne : a' < b'
  swap
  · rw [show b' - a' = 0 by omega, List.take_zero]; exact List.nil_infix
  have h1 : a ≤ a' := by
    rcases ha with ⟨e, he, rfl⟩ | ⟨rfl, -⟩
    · obtain ⟨s', e', hm, hs', he'⟩ := hmap he
      obtain rfl : s' = 0 := by omega
      rcases ha' with ⟨e2, he2, rfl⟩ | ⟨-, hno⟩
      · have := congrArg Prod.snd (huniq he2 hm (.inl rfl))
        dsimp only at this
        omega
      · exact absurd hm (hno _)
    · omega
  have h3 : b' ≤ b := by
    rcases hbb with he | ⟨rfl, -⟩
    · obtain ⟨s', e', hm, hs', he'⟩ := hmap he
      have := (hb' _ hm).2
      obtain rfl : e' = x.length := by dsimp only at this; omega
      rcases hbb' with he2 | ⟨-, hno⟩
      · have := congrArg Prod.fst (huniq he2 hm (.inr rfl))
        dsimp only at this
        omega
      · exact absurd hm (hno _)
    · rcases hbb' with he2 | ⟨rfl, -⟩
      · have := hb' _ he2; dsimp only at this; omega
      · exact Nat.le_refl _
  refine ⟨(x.drop a).take (a' - a), (x.drop b').take (b - b'), ?_⟩
  have e1 : x.drop a' = (x.drop a).drop (a' - a) := by rw [List.drop_drop]; congr 1; omega
  have e2 : x.drop b' = (x.drop a).drop (b' - a) := by rw [List.drop_drop]; congr 1; omega
  rw [e1, e2, show b - a = (b' - a) + (b - b') by omega, List.take_add, show b' - a = (a' - a) + (b' - a') by omega,
    List.take_add]

/-! `C121_map`, `C121_trim`: the second setting waits for a second of silence, the first for half of one. -/
example : Keener Libm.demo ⟨-40, 500, 2⟩ ⟨-40, 1000, 2⟩ ∧
    (∃ map, detectAndTrim Libm.demo [0, 0, 0, 1, 1, 0, 0, 0] 4 ⟨-40, 1000, 2⟩ = .ok ([0, 1, 1, 0, 0, 0], map)) ∧
    ∃ map, detectAndTrim Libm.demo [0, 0, 0, 1, 1, 0, 0, 0] 4 ⟨-40, 500, 2⟩ = .ok ([0, 1, 1], map) :=
  ⟨⟨by decide +kernel, by decide, rfl⟩, ⟨[(0, 2)], by decide +kernel⟩, ⟨[(0, 2), (5, 8)], by decide +kernel⟩⟩

/-! And with a threshold of -10 dB in place of -40: a quiet opening now counts as silence. -/
example : Keener stepLibm ⟨-10, 500, 2⟩ ⟨-40, 500, 2⟩ ∧
    (∃ map, detectAndTrim stepLibm [0, 0, 0.25, 0.25, 1, 1] 4 ⟨-40, 500, 2⟩ = .ok ([0, 0.25, 0.25, 1, 1], map)) ∧
    ∃ map, detectAndTrim stepLibm [0, 0, 0.25, 0.25, 1, 1] 4 ⟨-10, 500, 2⟩ = .ok ([0.25, 1, 1], map) :=
  ⟨⟨by decide +kernel, by decide, rfl⟩, ⟨[(0, 1)], by decide +kernel⟩, ⟨[(0, 3)], by decide +kernel⟩⟩

end Verif.Props
