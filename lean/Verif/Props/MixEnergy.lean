/-
Property theorems C151: mixing down to mono keeps the energy of the recording
(src/preprocessing/channel_mixer.rs:27-147).
-/
import Verif.Props.ChannelMixer

namespace Verif.Props
open Verif Verif.Mixer Verif.F32

/-! ### specification -/

/-- the energy of a channel, in exact arithmetic -/
def channelEnergy (l : List F32) : ℚ := (l.map (fun x => x.val ^ 2)).sum

/-- the energy of what distinguishes the two channels (half their difference), in exact arithmetic -/
def sideEnergy (l r : List F32) : ℚ := (List.zipWith (fun x y => ((x.val - y.val) / 2) ^ 2) l r).sum

theorem channelEnergy_cons (x : F32) (l : List F32) : channelEnergy (x :: l) = x.val ^ 2 + channelEnergy l := by
  simp [channelEnergy]

theorem sideEnergy_cons (x y : F32) (l r : List F32) :
    sideEnergy (x :: l) (y :: r) = ((x.val - y.val) / 2) ^ 2 + sideEnergy l r := by
  simp [sideEnergy]

theorem channelEnergy_nonneg (l : List F32) : 0 ≤ channelEnergy l := by
  unfold channelEnergy
  exact List.sum_nonneg (by intro q hq; obtain ⟨x, -, rfl⟩ := List.mem_map.1 hq; positivity)

/-! ### one sample -/

/-- what one call on one sample each says about the closure -/
theorem mixOne_of_single {x y z : F32} {mode : Mode} (h : stereoToMono [x] [y] mode = .ok [z]) : mixOne mode x y = z := by
  simpa [stereoToMono] using h

theorem mix_energy_one {x y : F32} {mode : Mode} (hm : mode ≠ .dominant) (hx : x.isFinite = true ∧ |x.val| ≤ 2 ^ 20)
    (hy : y.isFinite = true ∧ |y.val| ≤ 2 ^ 20) :
    (mixOne mode x y).isFinite = true ∧
    |(mixOne mode x y).val ^ 2 + ((x.val - y.val) / 2) ^ 2 - (x.val ^ 2 + y.val ^ 2) / 2| ≤
      (x.val ^ 2 + y.val ^ 2) / 2 * (1 / 2 ^ 20) + 1 / 2 ^ 120 := by
  have hs : (x + y).isFinite = true := by
    obtain ⟨a, ha, rfl⟩ := isFinite_iff.1 hx.1
    obtain ⟨b, hb, rfl⟩ := isFinite_iff.1 hy.1
    have h21 : pow2 21 = 2 ^ 21 := by rw [pow2_eq]; norm_num
    obtain ⟨hq, e, -⟩ := rnd_finite_of_abs_le (q := a + b) (b := pow2 21) (by decide +kernel) (by
      rw [h21]
      have h1 : |a| ≤ 2 ^ 20 := hx.2
      have h2 : |b| ≤ 2 ^ 20 := hy.2
      have := abs_add_le a b
      norm_num at h1 h2 ⊢
      linarith)
    rw [add_fin, e]; rfl
  obtain ⟨z, hz, hzf, hze⟩ := C07_average x y mode hm hx.1 hy.1 hs
  rw [mixOne_of_single hz]
  refine ⟨hzf, ?_⟩
  have e22 : pow2 (-22) = 1 / 2 ^ 22 := by rw [pow2_eq]; norm_num
  have e148 : pow2 (-148) = 1 / 2 ^ 148 := by rw [pow2_eq]; norm_num
  rw [e22, e148] at hze
  have hx2 := hx.2
  have hy2 := hy.2
  generalize z.val = c at *
  generalize x.val = a at *
  generalize y.val = b at *
  set q := (a + b) / 2 with hq
  have hq1 : |q| ≤ 2 ^ 20 := by
    rw [hq, abs_div, abs_two, div_le_iff₀ (by norm_num)]
    have := abs_add_le a b
    linarith
  have hid : c ^ 2 + ((a - b) / 2) ^ 2 - (a ^ 2 + b ^ 2) / 2 = c ^ 2 - q ^ 2 := by rw [hq]; ring
  rw [hid]
  have hqq : q ^ 2 ≤ (a ^ 2 + b ^ 2) / 2 := by
    rw [hq]; nlinarith [sq_nonneg (a - b)]
  have hq0 := _root_.abs_nonneg q
  have h1 : |c + q| ≤ |q| * (2 + 1 / 2 ^ 22) + 1 / 2 ^ 148 := by
    have := abs_add_le (c - q) (2 * q)
    rw [show c - q + 2 * q = c + q by ring, _root_.abs_mul, abs_two] at this
    linarith
  have h2 : |c ^ 2 - q ^ 2| ≤ |q| ^ 2 * (1 / 2 ^ 20) + 1 / 2 ^ 120 := by
    rw [show c ^ 2 - q ^ 2 = (c - q) * (c + q) by ring, _root_.abs_mul]
    calc |c - q| * |c + q| ≤ (|q| * (1 / 2 ^ 22) + 1 / 2 ^ 148) * (|q| * (2 + 1 / 2 ^ 22) + 1 / 2 ^ 148) :=
          _root_.mul_le_mul hze h1 (_root_.abs_nonneg _) (by positivity)
      _ = |q| ^ 2 * ((2 + 1 / 2 ^ 22) * (1 / 2 ^ 22)) + |q| * ((2 + 2 / 2 ^ 22) * (1 / 2 ^ 148)) +
          1 / 2 ^ 148 * (1 / 2 ^ 148) := by ring
      _ ≤ |q| ^ 2 * (1 / 2 ^ 20) + 2 ^ 20 * ((2 + 2 / 2 ^ 22) * (1 / 2 ^ 148)) + 1 / 2 ^ 148 * (1 / 2 ^ 148) := by
          gcongr; norm_num
      _ ≤ _ := by
          rw [_root_.add_assoc]
          gcongr
          norm_num
  rw [sq_abs] at h2
  have h3 : q ^ 2 * (1 / 2 ^ 20) ≤ (a ^ 2 + b ^ 2) / 2 * (1 / 2 ^ 20) := by gcongr
  linarith

theorem mix_energy_all {mode : Mode} (hm : mode ≠ .dominant) : ∀ l r : List F32, l.length = r.length →
    (∀ x ∈ l, x.isFinite = true ∧ |x.val| ≤ 2 ^ 20) → (∀ x ∈ r, x.isFinite = true ∧ |x.val| ≤ 2 ^ 20) →
    (∀ z ∈ (l.zip r).map (fun p => mixOne mode p.1 p.2), z.isFinite = true) ∧
    |channelEnergy ((l.zip r).map (fun p => mixOne mode p.1 p.2)) + sideEnergy l r - (channelEnergy l + channelEnergy r) / 2| ≤
      (channelEnergy l + channelEnergy r) / 2 * (1 / 2 ^ 20) + (l.length : ℚ) / 2 ^ 120
  | [], [], _, _, _ => by simp [channelEnergy, sideEnergy]
  | x :: l, y :: r, hlen, hl, hr => by
    obtain ⟨h1, h2⟩ := mix_energy_all hm l r (by simpa using hlen) (fun z hz => hl z (by simp [hz])) (fun z hz => hr z (by simp [hz]))
    obtain ⟨f1, f2⟩ := mix_energy_one hm (hl x (by simp)) (hr y (by simp))
    refine ⟨?_, ?_⟩
    · intro z hz
      rw [List.zip_cons_cons, List.map_cons, List.mem_cons] at hz
      rcases hz with rfl | hz
      · exact f1
      · exact h1 z hz
    · rw [List.zip_cons_cons, List.map_cons, channelEnergy_cons, channelEnergy_cons, channelEnergy_cons, sideEnergy_cons,
        List.length_cons]
      dsimp only
      push_cast
      generalize (mixOne mode x y).val ^ 2 = c at *
      generalize ((x.val - y.val) / 2) ^ 2 = s at *
      generalize x.val ^ 2 = a at *
      generalize y.val ^ 2 = b at *
      generalize channelEnergy ((l.zip r).map (fun p => mixOne mode p.1 p.2)) = C at *
      generalize sideEnergy l r = S at *
      generalize channelEnergy l = A at *
      generalize channelEnergy r = B at *
      have := abs_add_le (c + s - (a + b) / 2) (C + S - (A + B) / 2)
      rw [show c + C + (s + S) - (a + A + (b + B)) / 2 = (c + s - (a + b) / 2) + (C + S - (A + B) / 2) by ring,
        show (a + A + (b + B)) / 2 * (1 / 2 ^ 20) + ((l.length : ℚ) + 1) / 2 ^ 120 =
          ((a + b) / 2 * (1 / 2 ^ 20) + 1 / 2 ^ 120) + ((A + B) / 2 * (1 / 2 ^ 20) + l.length / 2 ^ 120) by ring]
      linarith

/-- **C151 (averaging modes, partial).** The energy of the mix of two channels of finite samples is the mean of the
energies of the channels minus the energy of half their difference, up to rounding. So it is preserved up to what
distinguishes the channels. Missing: that part, which is lost (`C151_violated`). -/
theorem C151_average_partial (l r : List F32) (mode : Mode) (hm : mode ≠ .dominant) (hlen : l.length = r.length)
    (hl : ∀ x ∈ l, x.isFinite = true ∧ |x.val| ≤ 2 ^ 20) (hr : ∀ x ∈ r, x.isFinite = true ∧ |x.val| ≤ 2 ^ 20) :
    ∃ out, stereoToMono l r mode = .ok out ∧ (∀ z ∈ out, z.isFinite = true) ∧
      |channelEnergy out + sideEnergy l r - (channelEnergy l + channelEnergy r) / 2| ≤
        (channelEnergy l + channelEnergy r) / 2 * (1 / 2 ^ 20) + (l.length : ℚ) / 2 ^ 120 := by
  obtain ⟨h1, h2⟩ := mix_energy_all hm l r hlen hl hr
  refine ⟨_, ?_, h1, h2⟩
  unfold stereoToMono
  rw [if_neg (by simpa using hlen)]
  by_cases h0 : l = []
  · subst h0; simp
  · rw [if_neg h0]

theorem dominant_one {x y : F32} (hx : x.isFinite = true) (hy : y.isFinite = true) :
    (mixOne .dominant x y).isFinite = true ∧ x.val ^ 2 ≤ (mixOne .dominant x y).val ^ 2 ∧
    y.val ^ 2 ≤ (mixOne .dominant x y).val ^ 2 ∧ (mixOne .dominant x y).val ^ 2 ≤ x.val ^ 2 + y.val ^ 2 := by
  obtain ⟨a, ha, rfl⟩ := isFinite_iff.1 hx
  obtain ⟨b, hb, rfl⟩ := isFinite_iff.1 hy
  unfold mixOne
  dsimp only
  rw [abs_fin, abs_fin]
  have ha2 : 0 ≤ a ^ 2 := by positivity
  have hb2 : 0 ≤ b ^ 2 := by positivity
  split_ifs with h
  · have h' := fin_le_fin.1 h
    have := sq_le_sq.2 h'
    exact ⟨rfl, _root_.le_refl _, this, by show a ^ 2 ≤ a ^ 2 + b ^ 2; linarith⟩
  · have h' : |a| < |b| := by rw [fin_le_fin] at h; exact not_le.1 h
    have := sq_le_sq.2 h'.le
    exact ⟨rfl, this, _root_.le_refl _, by show b ^ 2 ≤ a ^ 2 + b ^ 2; linarith⟩

theorem dominant_all : ∀ l r : List F32, l.length = r.length →
    (∀ x ∈ l, x.isFinite = true) → (∀ x ∈ r, x.isFinite = true) →
    channelEnergy l ≤ channelEnergy ((l.zip r).map (fun p => mixOne .dominant p.1 p.2)) ∧
    channelEnergy r ≤ channelEnergy ((l.zip r).map (fun p => mixOne .dominant p.1 p.2)) ∧
    channelEnergy ((l.zip r).map (fun p => mixOne .dominant p.1 p.2)) ≤ channelEnergy l + channelEnergy r
  | [], [], _, _, _ => by simp [channelEnergy]
  | x :: l, y :: r, hlen, hl, hr => by
    obtain ⟨h1, h2, h3⟩ := dominant_all l r (by simpa using hlen) (fun z hz => hl z (by simp [hz])) (fun z hz => hr z (by simp [hz]))
    obtain ⟨-, f1, f2, f3⟩ := dominant_one (hl x (by simp)) (hr y (by simp))
    rw [List.zip_cons_cons, List.map_cons, channelEnergy_cons, channelEnergy_cons, channelEnergy_cons]
    dsimp only
    exact ⟨by linarith, by linarith, by linarith⟩

/-- **C151 (Dominant mode).** The mix has at least the energy of either channel and at most that of both, exactly: no
sound is lost, whatever the polarities. -/
theorem C151_dominant (l r : List F32) (hlen : l.length = r.length)
    (hl : ∀ x ∈ l, x.isFinite = true) (hr : ∀ x ∈ r, x.isFinite = true) :
    ∃ out, stereoToMono l r .dominant = .ok out ∧ channelEnergy l ≤ channelEnergy out ∧ channelEnergy r ≤ channelEnergy out ∧
      channelEnergy out ≤ channelEnergy l + channelEnergy r := by
  refine ⟨_, ?_, dominant_all l r hlen hl hr⟩
  unfold stereoToMono
  rw [if_neg (by simpa using hlen)]
  by_cases h0 : l = []
  · subst h0; simp
  · rw [if_neg h0]

/-- **C151 (violated).** Every recording whose channels are of opposite polarity is mixed to digital silence by the three
averaging modes, however loud it is. -/
theorem C151_violated (l : List F32) (mode : Mode) (hm : mode ≠ .dominant) (hl : ∀ x ∈ l, x.isFinite = true) :
    stereoToMono l (l.map (fun x => -x)) mode = .ok (List.replicate l.length 0) := by
  unfold stereoToMono
  rw [if_neg (by simp)]
  by_cases h0 : l = []
  · subst h0; simp
  rw [if_neg h0]
  congr 1
  rw [List.eq_replicate_iff]
  refine ⟨by simp, fun z hz => ?_⟩
  obtain ⟨p, hp, rfl⟩ := List.mem_map.1 hz
  rw [List.zip_map_right, List.mem_map] at hp
  obtain ⟨q, hq, rfl⟩ := hp
  have hqe : q.1 = q.2 := by
    obtain ⟨i, hi, e⟩ := List.mem_iff_getElem.1 hq
    rw [← e]
    simp
  have hq1 := (List.of_mem_zip hq).1
  obtain ⟨a, b⟩ := q
  dsimp only at hqe hq1
  subst hqe
  obtain ⟨v, hv, rfl⟩ := isFinite_iff.1 (hl a hq1)
  have e : mixOne mode (fin v hv) (-fin v hv) = (fin v hv + -fin v hv) * 0.5 := by
    cases mode <;> first | rfl | exact absurd rfl hm
  show mixOne mode (fin v hv) (-fin v hv) = 0
  rw [e, neg_fin, add_fin, add_neg_cancel]
  decide +kernel

/-! Non-vacuity: a stereo recording with both channels sounding; one of opposite polarity that is not silent. -/
example : (∀ x ∈ ([1, -0.5] : List F32), x.isFinite = true ∧ |x.val| ≤ 2 ^ 20) ∧
    (∀ x ∈ ([0.5, 0.25] : List F32), x.isFinite = true ∧ |x.val| ≤ 2 ^ 20) ∧
    channelEnergy [1, -0.5] = 5 / 4 ∧ sideEnergy [1, -0.5] [0.5, 0.25] ≠ 0 ∧
    stereoToMono [1, -0.5] [0.5, 0.25] .mono = .ok [0.75, -0.125] := by decide +kernel
example : channelEnergy [1, -0.5] = 5 / 4 ∧ stereoToMono [1, -0.5] [-1, 0.5] .mono = .ok [0, 0] ∧
    stereoToMono [1, -0.5] [-1, 0.5] .dominant = .ok [1, -0.5] := by decide +kernel

end Verif.Props
