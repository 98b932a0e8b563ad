/-
Where the energy-flux onset detector puts the clicks of a click track (C117).
-/
import Verif.Props.Attacks
import Verif.Props.FrameWeights
import Verif.Props.ChromaMap
import Verif.Props.Stft
import Verif.Props.Transpose

namespace Verif.Props
open Verif Verif.Onset Verif.F32

/-- Specification: clicks in silence: single non-zero samples, any two of them at least a frame and a
hop apart. -/
def ClickTrack (samples : List F32) (frame hop : ℕ) : Prop :=
  (∀ x ∈ samples, x ≠ nan) ∧
  ∀ s t x y, s < t → samples[s]? = some x → samples[t]? = some y → x ≠ 0 → y ≠ 0 → s + frame + hop ≤ t

/-- Specification: sample `s` lies in the frame that starts at `o`. -/
def InFrame (frame o s : ℕ) : Prop := o ≤ s ∧ s < o + frame

/-- Specification: the level of a frame that contains nothing but the sample `x`. -/
def clickLevel (frame : ℕ) (x : F32) : F32 := F32.sqrt (x * x / F32.ofNat frame)

/-- Specification: the frame starting at `o` (not the first one) is the first frame with the click
`x` at sample `s`. -/
def Enters (samples : List F32) (frame hop o s : ℕ) (x : F32) : Prop :=
  samples[s]? = some x ∧ x ≠ 0 ∧ hop ∣ o ∧ 0 < o ∧ o + frame ≤ samples.length ∧ InFrame frame o s ∧
    ¬ InFrame frame (o - hop) s

theorem clickLevel_nonneg {frame : ℕ} {x : F32} (h1 : 1 ≤ frame) (h2 : frame ≤ 2 ^ 24) (hx : x ≠ nan) :
    0 ≤ clickLevel frame x := by
  apply F32.sqrt_nonneg
  have h0 := sq_nonneg' hx
  have hf : (0 : ℚ) < frame := by exact_mod_cast h1
  rw [ofNat_exact h2]
  rcases nonneg_cases h0 with e | ⟨v, hv, e, h⟩
  · rw [e, inf_div_fin, decide_eq_false (not_lt.2 (_root_.le_of_lt hf))]
    decide +kernel
  · rw [e, div_fin (_root_.ne_of_gt hf), zero_def]
    exact fin_le_rnd (_root_.div_nonneg h (_root_.le_of_lt hf))

theorem sum_alone {l : List F32} {i : ℕ} {v : F32} (hi : l[i]? = some v) (h : ∀ j y, j ≠ i → l[j]? = some y → y = 0) :
    F32.sum l = v := by
  obtain ⟨hl, e⟩ := List.getElem?_eq_some_iff.1 hi
  have hz : ∀ (m : List F32) (a : F32), (∀ y ∈ m, y = 0) → m.foldl (· + ·) a = a := by
    intro m
    induction m with
    | nil => intro a _; rfl
    | cons y ys ih =>
      intro a hm
      rw [List.foldl_cons, hm y (by simp), add_zero_right]
      exact ih a (fun z hz => hm z (by simp [hz]))
  have hsplit : l = l.take i ++ v :: l.drop (i + 1) := by
    rw [← e, List.getElem_cons_drop, List.take_append_drop]
  have hA : ∀ y ∈ l.take i, y = 0 := by
    intro y hy
    obtain ⟨j, hj⟩ := List.getElem?_of_mem hy
    rw [List.getElem?_take] at hj
    split_ifs at hj with hji
    exact h j y (by omega) hj
  have hB : ∀ y ∈ l.drop (i + 1), y = 0 := by
    intro y hy
    obtain ⟨j, hj⟩ := List.getElem?_of_mem hy
    rw [List.getElem?_drop] at hj
    exact h _ y (by omega) hj
  unfold F32.sum
  rw [hsplit, List.foldl_append, hz _ _ hA, List.foldl_cons, zero_add_left]
  exact hz _ _ hB

theorem frame_get {samples : List F32} {frame o j : ℕ} {y : F32}
    (h : ((samples.drop o).take frame)[j]? = some y) : j < frame ∧ samples[o + j]? = some y := by
  rw [List.getElem?_take] at h
  split_ifs at h with hj
  rw [List.getElem?_drop] at h
  exact ⟨hj, h⟩

theorem energy_click {samples : List F32} {frame hop o s : ℕ} {x : F32} (hc : ClickTrack samples frame hop)
    (hs : samples[s]? = some x) (hx : x ≠ 0) (hin : InFrame frame o s) :
    Energy samples frame o = clickLevel frame x := by
  unfold Energy clickLevel
  obtain ⟨h1, h2⟩ := hin
  rw [sum_alone (i := s - o) (v := x * x)]
  · rw [List.getElem?_map, List.getElem?_take, if_pos (by omega), List.getElem?_drop,
      show o + (s - o) = s by omega, hs]; rfl
  · intro j y hj hy
    rw [List.getElem?_map, Option.map_eq_some_iff] at hy
    obtain ⟨z, hz, rfl⟩ := hy
    obtain ⟨hjf, hz⟩ := frame_get hz
    by_cases hz0 : z = 0
    · rw [hz0]; decide +kernel
    · exfalso
      rcases Nat.lt_or_gt_of_ne (show o + j ≠ s by omega) with hlt | hlt
      · have := hc.2 _ _ _ _ hlt hz hs hz0 hx; omega
      · have := hc.2 _ _ _ _ hlt hs hz hx hz0; omega

theorem energy_silent {samples : List F32} {frame o : ℕ} (hf : 1 ≤ frame)
    (h : ∀ s x, InFrame frame o s → samples[s]? = some x → x = 0) : Energy samples frame o = 0 := by
  unfold Energy
  rw [sum_zeros, zero_div_pos (ofNat_pos hf), F32.sqrt_zero]
  intro y hy
  obtain ⟨z, hz, rfl⟩ := List.mem_map.1 hy
  obtain ⟨j, hj⟩ := List.getElem?_of_mem hz
  obtain ⟨hjf, hj⟩ := frame_get hj
  rw [h _ z ⟨by omega, by omega⟩ hj]; decide +kernel

/-- the flux is the level of the click that enters, and nothing else -/
theorem rise_click {samples : List F32} {frame hop o s : ℕ} {x : F32} (hc : ClickTrack samples frame hop)
    (hf : 1 ≤ frame) (hf2 : frame ≤ 2 ^ 24) (hop0 : hop ≤ o) (hs : samples[s]? = some x) (hx : x ≠ 0)
    (hin : InFrame frame o s) (hout : ¬ InFrame frame (o - hop) s) :
    F32.max (Energy samples frame o - Energy samples frame (o - hop)) 0 = clickLevel frame x := by
  have hz : Energy samples frame (o - hop) = 0 := by
    apply energy_silent hf
    intro t y ht hy
    by_contra hy0
    unfold InFrame at *
    rcases Nat.lt_trichotomy t s with hlt | rfl | hlt
    · have := hc.2 _ _ _ _ hlt hy hs hy0 hx; omega
    · exact hout ht
    · have := hc.2 _ _ _ _ hlt hs hy hx hy0; omega
  have h0 := clickLevel_nonneg hf hf2 (hc.1 x (List.mem_of_getElem? hs))
  rw [hz, energy_click hc hs hx hin, sub_zero_pos h0]
  exact F32.le_antisymm (F32.max_le (F32.le_refl (ne_nan_right h0)) h0) (F32.le_max_left (ne_nan_right h0))

theorem rise_none {samples : List F32} {frame hop o : ℕ} (hc : ClickTrack samples frame hop)
    (hf : 1 ≤ frame) (hf2 : frame ≤ 2 ^ 24)
    (h : ∀ s x, samples[s]? = some x → x ≠ 0 → InFrame frame o s → InFrame frame (o - hop) s) :
    F32.max (Energy samples frame o - Energy samples frame (o - hop)) 0 = 0 := by
  apply rectified_zero
  by_cases he : ∃ s x, samples[s]? = some x ∧ x ≠ 0 ∧ InFrame frame o s
  · obtain ⟨s, x, hs, hx, hin⟩ := he
    rw [energy_click hc hs hx hin, energy_click hc hs hx (h s x hs hx hin)]
    exact F32.le_refl (ne_nan_right (clickLevel_nonneg hf hf2 (hc.1 x (List.mem_of_getElem? hs))))
  · rw [energy_silent hf (fun s x hin hs => by
      by_contra hx
      exact he ⟨s, x, hs, hx, hin⟩)]
    by_cases he2 : ∃ s x, samples[s]? = some x ∧ x ≠ 0 ∧ InFrame frame (o - hop) s
    · obtain ⟨s, x, hs, hx, hin⟩ := he2
      rw [energy_click hc hs hx hin]
      exact clickLevel_nonneg hf hf2 (hc.1 x (List.mem_of_getElem? hs))
    · rw [energy_silent hf (fun s x hin hs => by
        by_contra hx
        exact he2 ⟨s, x, hs, hx, hin⟩)]
      exact F32.le_refl zero_ne_nan

/-- **C117.** The energy-flux detector on a click track: it reports, at the start of the first frame
that contains it, every click whose level lies above the threshold taken from the loudest click, and
nothing else.  Clicks that are in the first frame already, or that only the last, incomplete stretch of
the signal contains, or that fall between two frames, are not seen. -/
theorem C117_clicks (M : Libm) {samples : List F32} {frame hop : ℕ} {thrDb : F32}
    (hc : ClickTrack samples frame hop) (hf : 1 ≤ frame) (hf2 : frame ≤ 2 ^ 24) (hop0 : 1 ≤ hop)
    (hlen : frame + 2 * hop ≤ samples.length) (hp : 0 ≤ M.powf 10 (thrDb / 20)) :
    ∃ out m, energyFluxOnsets M samples frame hop thrDb = .ok out ∧ out.Pairwise (· < ·) ∧ 0 ≤ m ∧
      (∀ o s x, Enters samples frame hop o s x → clickLevel frame x ≤ m) ∧
      (m = 0 ∨ ∃ o s x, Enters samples frame hop o s x ∧ m = clickLevel frame x) ∧
      (m ≤ 1e-10 → out = []) ∧
      (¬ m ≤ 1e-10 → ∀ o, o ∈ out ↔
        ∃ s x, Enters samples frame hop o s x ∧ m * M.powf 10 (thrDb / 20) < clickLevel frame x) := by
  have hne : samples ≠ [] := by
    intro h; rw [h] at hlen; simp at hlen; omega
  obtain ⟨out, e, hpw, _, f, m, hr, hm, hlow, hhigh⟩ := (C08_energy_flux_onsets M samples frame hop thrDb).2 (by
    rintro ⟨_, h⟩; omega)
  rw [if_pos (by omega)] at hr
  set N := (samples.length - frame) / hop with hN
  have hN2 : 2 ≤ N := by
    rw [hN, Nat.le_div_iff_mul_le hop0]; omega
  have hNle : ∀ k, k ≤ N ↔ k * hop + frame ≤ samples.length := by
    intro k
    rw [hN, Nat.le_div_iff_mul_le hop0]; omega
  -- the flux values
  have hval : ∀ k, 1 ≤ k → k ≤ N → f[k - 1]? =
      some (F32.max (Energy samples frame (k * hop) - Energy samples frame (k * hop - hop)) 0) := by
    intro k h1 h2
    rw [hr.2 (k - 1) (by omega), show k - 1 + 1 = k by omega]
    dsimp only
    rw [Nat.sub_mul, Nat.one_mul]
  have hop_le : ∀ k, 1 ≤ k → hop ≤ k * hop := fun k h => Nat.le_mul_of_pos_left hop (by omega)
  have hent : ∀ k s x, 1 ≤ k → k ≤ N → samples[s]? = some x → x ≠ 0 → InFrame frame (k * hop) s →
      ¬ InFrame frame (k * hop - hop) s → Enters samples frame hop (k * hop) s x := by
    intro k s x h1 h2 hs hx hi ho
    exact ⟨hs, hx, ⟨k, Nat.mul_comm _ _⟩, Nat.mul_pos (by omega) (by omega), (hNle k).1 h2, hi, ho⟩
  have hent2 : ∀ o s x, Enters samples frame hop o s x → ∃ k, o = k * hop ∧ 1 ≤ k ∧ k ≤ N ∧
      f[k - 1]? = some (clickLevel frame x) := by
    rintro o s x ⟨hs, hx, ⟨k, rfl⟩, h0, h1, hi, ho⟩
    have hk : 1 ≤ k := by
      rcases Nat.eq_zero_or_pos k with rfl | h
      · simp at h0
      · exact h
    rw [Nat.mul_comm] at h1 hi ho ⊢
    refine ⟨k, rfl, hk, (hNle k).2 h1, ?_⟩
    rw [hval k hk ((hNle k).2 h1), rise_click hc hf hf2 (hop_le k hk) hs hx hi ho]
  have hcase : ∀ k, 1 ≤ k → k ≤ N → f[k - 1]? = some 0 ∨
      ∃ s x, Enters samples frame hop (k * hop) s x ∧ f[k - 1]? = some (clickLevel frame x) := by
    intro k h1 h2
    by_cases h : ∃ s x, samples[s]? = some x ∧ x ≠ 0 ∧ InFrame frame (k * hop) s ∧ ¬ InFrame frame (k * hop - hop) s
    · obtain ⟨s, x, hs, hx, hi, ho⟩ := h
      refine .inr ⟨s, x, hent k s x h1 h2 hs hx hi ho, ?_⟩
      rw [hval k h1 h2, rise_click hc hf hf2 (hop_le k h1) hs hx hi ho]
    · left
      rw [hval k h1 h2, rise_none hc hf hf2]
      intro s x hs hx hi
      by_contra ho
      exact h ⟨s, x, hs, hx, hi, ho⟩
  refine ⟨out, m, e, hpw.imp (fun h => h.1), hm.2.1, ?_, ?_, hlow, ?_⟩
  · intro o s x h
    obtain ⟨k, _, _, _, hk⟩ := hent2 o s x h
    exact hm.1 _ (List.mem_of_getElem? hk)
  · rcases hm.2.2 with h | h
    · exact .inl h
    · obtain ⟨i, hi⟩ := List.getElem?_of_mem h
      have hiN : i < N := by rw [← hr.1]; exact (List.getElem?_eq_some_iff.1 hi).1
      rcases hcase (i + 1) (by omega) (by omega) with h2 | ⟨s, x, h2, h3⟩
      · rw [Nat.add_sub_cancel, hi] at h2
        exact .inl (Option.some.inj h2)
      · rw [Nat.add_sub_cancel, hi] at h3
        exact .inr ⟨_, s, x, h2, Option.some.inj h3⟩
  · intro hbig o
    have hthr : ∀ v, m * M.powf 10 (thrDb / 20) < v → 0 < v := by
      intro v hv
      have hn : m * M.powf 10 (thrDb / 20) ≠ nan := by
        intro h; rw [h] at hv; exact absurd hv (by simp)
      exact F32.lt_of_le_of_lt (F32.mul_nonneg hm.2.1 hp hn) hv
    rw [hhigh hbig o]
    constructor
    · rintro ⟨k, rfl, hk⟩
      have hkr := hk.range
      rw [hr.1] at hkr
      obtain ⟨_, _, v, hv, hlt, _⟩ := hk
      rcases hcase k hkr.1 hkr.2 with h | ⟨s, x, h2, h3⟩
      · rw [hv] at h
        have := hthr v hlt
        rw [Option.some.inj h] at this
        exact absurd this (F32.lt_irrefl _)
      · rw [hv] at h3
        exact ⟨s, x, h2, by rw [← Option.some.inj h3]; exact hlt⟩
    · rintro ⟨s, x, hE, hlt⟩
      obtain ⟨k, rfl, hk1, hkN, hfk⟩ := hent2 o s x hE
      have hpos := hthr _ hlt
      refine ⟨k, rfl, by rw [hr.1]; exact hN2, hk1, _, hfk, hlt, ?_, ?_⟩
      · intro y hk2 hy
        rcases hcase (k - 1) (by omega) (by omega) with h | ⟨t, z, h2, h3⟩
        · rw [show k - 1 - 1 = k - 2 by omega, hy] at h
          rw [Option.some.inj h]; exact hpos
        · exfalso
          obtain ⟨hs, hx, _, _, _, hi, ho⟩ := hE
          obtain ⟨ht, hz, _, _, _, hi2, ho2⟩ := h2
          have := hop_le k hk1
          unfold InFrame at *
          rw [Nat.sub_mul, Nat.one_mul] at hi2 ho2
          rcases Nat.lt_trichotomy t s with hlt | rfl | hlt
          · have := hc.2 _ _ _ _ hlt ht hs hz hx; omega
          · exact ho hi2
          · have := hc.2 _ _ _ _ hlt hs ht hx hz; omega
      · intro y hy
        have hkl : k < N := by rw [← hr.1]; exact (List.getElem?_eq_some_iff.1 hy).1
        rcases hcase (k + 1) (by omega) (by omega) with h | ⟨t, z, h2, h3⟩
        · rw [Nat.add_sub_cancel, hy] at h
          rw [Option.some.inj h]; exact F32.le_of_lt hpos
        · exfalso
          obtain ⟨hs, hx, _, _, _, hi, ho⟩ := hE
          obtain ⟨ht, hz, _, _, _, hi2, ho2⟩ := h2
          unfold InFrame at *
          rw [Nat.add_mul, Nat.one_mul] at hi2 ho2
          rcases Nat.lt_trichotomy t s with hlt | rfl | hlt
          · have := hc.2 _ _ _ _ hlt ht hs hz hx; omega
          · rw [Nat.add_sub_cancel] at ho2; exact ho2 hi
          · have := hc.2 _ _ _ _ hlt hs ht hx hz; omega

/-- **C117, when the clicks are equally loud.** With a threshold of at most half the loudest flux
(-6.1 dB or lower) every click of a level above 1e-10 that some frame after the first one is the first
to contain is reported, and nothing else. -/
theorem C117_equal (M : Libm) {samples : List F32} {frame hop : ℕ} {thrDb L : F32}
    (hc : ClickTrack samples frame hop) (hf : 1 ≤ frame) (hf2 : frame ≤ 2 ^ 24) (hop0 : 1 ≤ hop)
    (hlen : frame + 2 * hop ≤ samples.length) (hp : 0 ≤ M.powf 10 (thrDb / 20))
    (hp2 : M.powf 10 (thrDb / 20) ≤ 0.5) (hL : (1e-10 : F32) < L) (hfin : L.isFinite = true)
    (heq : ∀ x ∈ samples, x ≠ 0 → clickLevel frame x = L) :
    ∃ out, energyFluxOnsets M samples frame hop thrDb = .ok out ∧ out.Pairwise (· < ·) ∧
      ∀ o, o ∈ out ↔ ∃ s x, Enters samples frame hop o s x := by
  obtain ⟨out, m, e, hpw, _, hm1, hm2, hlow, hhigh⟩ := C117_clicks M hc hf hf2 hop0 hlen hp
  refine ⟨out, e, hpw, ?_⟩
  have hlev : ∀ o s x, Enters samples frame hop o s x → clickLevel frame x = L :=
    fun o s x h => heq x (List.mem_of_getElem? h.1) h.2.1
  rcases hm2 with rfl | ⟨o', s', x', h', rfl⟩
  · have := hlow (by decide +kernel)
    subst this
    intro o
    refine ⟨fun h => absurd h (by simp), ?_⟩
    rintro ⟨s, x, h⟩
    have := hm1 o s x h
    rw [hlev o s x h] at this
    exact absurd (F32.lt_of_lt_of_le (F32.lt_trans (show (0 : F32) < 1e-10 by decide +kernel) hL) this) (F32.lt_irrefl _)
  · rw [hlev _ _ _ h'] at hhigh
    have hlt : L * M.powf 10 (thrDb / 20) < L := by
      obtain ⟨l, hl, rfl⟩ := F32.isFinite_iff.1 hfin
      have hhalf : (0.5 : F32) = rnd (1 / 2) := by decide +kernel
      obtain ⟨p, hpg, ep, p0, p1⟩ := between_cases (a := M.powf 10 (thrDb / 20)) (lo := 0) (hi := 1 / 2) (hlo := grid_zero)
        (hhi := by decide +kernel) (by rw [← zero_def]; exact hp) (by convert hp2 using 1; rw [hhalf]; exact (rnd_val _).symm)
      have hl0 : (1 : ℚ) / 2 ^ 40 < l := by
        have h1 : rnd (1 / 2 ^ 40) ≤ (1e-10 : F32) := by decide +kernel
        have h2 := F32.lt_of_le_of_lt h1 hL
        rw [rnd_val (v := 1 / 2 ^ 40) (by decide +kernel)] at h2
        exact fin_lt_fin.1 h2
      have hlp : (0 : ℚ) < l := by linarith [show (0 : ℚ) < 1 / 2 ^ 40 by norm_num]
      rw [ep, mul_fin]
      have hq : l * p ≤ l / 2 := by nlinarith
      have hq0 : 0 ≤ l * p := _root_.mul_nonneg (_root_.le_of_lt hlp) p0
      obtain ⟨hw, ew, _⟩ := rnd_finite_of_abs_le hl (q := l * p) (by rw [_root_.abs_of_nonneg hq0]; linarith)
      have he := err_pow (l * p)
      rw [_root_.abs_of_nonneg hq0] at he
      have he2 := (abs_le.1 he).2
      rw [ew, fin_lt_fin]
      have h24 : l * p / 2 ^ 24 ≤ l / 2 / 4 := by
        have : l * p / 2 ^ 24 ≤ l * p / 4 := by
          apply div_le_div_of_nonneg_left hq0 (by norm_num) (by norm_num)
        linarith
      have : (1 : ℚ) / 2 ^ 150 ≤ 1 / 2 ^ 40 / 8 := by norm_num
      linarith
    have h1 : ¬ L ≤ 1e-10 := fun h => F32.lt_irrefl _ (F32.lt_of_lt_of_le hL h)
    intro o
    rw [hhigh h1 o]
    constructor
    · rintro ⟨s, x, h, _⟩; exact ⟨s, x, h⟩
    · rintro ⟨s, x, h⟩
      exact ⟨s, x, h, by rw [hlev _ _ _ h]; exact hlt⟩

/-- **C117, how far off the report is.** Every reported position lies before a click: by less than a
frame, and (frames overlapping) by at least a frame less a hop. -/
theorem C117_early (M : Libm) {samples out : List _} {frame hop : ℕ} {thrDb : F32}
    (hc : ClickTrack samples frame hop) (hf : 1 ≤ frame) (hf2 : frame ≤ 2 ^ 24) (hop0 : 1 ≤ hop)
    (hlen : frame + 2 * hop ≤ samples.length) (hp : 0 ≤ M.powf 10 (thrDb / 20))
    (h : energyFluxOnsets M samples frame hop thrDb = .ok out) (o : ℕ) (ho : o ∈ out) :
    ∃ s x, samples[s]? = some x ∧ x ≠ 0 ∧ o ≤ s ∧ s < o + frame ∧ o + frame ≤ s + hop := by
  obtain ⟨out', m, e, _, _, _, _, hlow, hhigh⟩ := C117_clicks M hc hf hf2 hop0 hlen hp
  rw [h] at e
  have e := Except.ok.inj e
  subst e
  by_cases hm : m ≤ 1e-10
  · rw [hlow hm] at ho; simp at ho
  · obtain ⟨s, x, ⟨hs, hx, ⟨k, rfl⟩, h0, _, hi, hn⟩, _⟩ := (hhigh hm o).1 ho
    have : hop ≤ hop * k := by
      rcases Nat.eq_zero_or_pos k with rfl | hk
      · simp at h0
      · exact Nat.le_mul_of_pos_right hop hk
    unfold InFrame at *
    exact ⟨s, x, hs, hx, by omega, by omega, by omega⟩

/-- **C117 is violated** whenever the frame is longer than two hops, as it is by default (2048 and 512
samples): the report of a click is never within a hop of it, or of any other click. -/
theorem C117_violated (M : Libm) {samples out : List _} {frame hop : ℕ} {thrDb : F32}
    (hc : ClickTrack samples frame hop) (hbig : 2 * hop < frame) (hf2 : frame ≤ 2 ^ 24) (hop0 : 1 ≤ hop)
    (hlen : frame + 2 * hop ≤ samples.length) (hp : 0 ≤ M.powf 10 (thrDb / 20))
    (h : energyFluxOnsets M samples frame hop thrDb = .ok out) (o : ℕ) (ho : o ∈ out)
    (t : ℕ) (y : F32) (ht : samples[t]? = some y) (hy : y ≠ 0) : ¬ (t ≤ o + hop ∧ o ≤ t + hop) := by
  obtain ⟨s, x, hs, hx, h1, h2, h3⟩ := C117_early M hc (by omega) hf2 hop0 hlen hp h o ho
  rcases Nat.lt_trichotomy t s with hlt | rfl | hlt
  · have := hc.2 _ _ _ _ hlt ht hs hy hx; omega
  · omega
  · have := hc.2 _ _ _ _ hlt hs ht hx hy; omega

/-- a click at sample 13 and a softer one at sample 23 -/
def twoClicks : List F32 :=
  List.replicate 13 0 ++ [1] ++ List.replicate 9 0 ++ [0.5] ++ List.replicate 12 0

theorem twoClicks_at {s : ℕ} {x : F32} (h : twoClicks[s]? = some x) (hx : x ≠ 0) :
    (s = 13 ∧ x = 1) ∨ (s = 23 ∧ x = 0.5) := by
  have hs : s < 36 := (List.getElem?_eq_some_iff.1 h).1
  unfold twoClicks at h
  interval_cases s <;> first
    | (exact absurd (Option.some.inj h).symm hx)
    | (left; exact ⟨rfl, (Option.some.inj h).symm⟩)
    | (right; exact ⟨rfl, (Option.some.inj h).symm⟩)

theorem twoClicks_track : ClickTrack twoClicks 5 2 := by
  constructor
  · intro x hx
    by_cases h0 : x = 0
    · rw [h0]; exact zero_ne_nan
    · obtain ⟨s, hs⟩ := List.getElem?_of_mem hx
      rcases twoClicks_at hs h0 with ⟨_, rfl⟩ | ⟨_, rfl⟩ <;> decide +kernel
  · intro s t x y hst hs ht hx hy
    rcases twoClicks_at hs hx with ⟨rfl, rfl⟩ | ⟨rfl, rfl⟩ <;>
      rcases twoClicks_at ht hy with ⟨rfl, rfl⟩ | ⟨rfl, rfl⟩ <;> omega

/-- frames of 5 samples every 2: the clicks are reported at 10 and 20, three samples early -/
example : energyFluxOnsets Libm.demo twoClicks 5 2 (-20) = .ok [10, 20] := by decide +kernel

example : Enters twoClicks 5 2 10 13 1 ∧ Enters twoClicks 5 2 20 23 0.5 := by
  refine ⟨⟨rfl, by decide +kernel, by decide, by decide, by decide, by unfold InFrame; omega, by unfold InFrame; omega⟩,
    ⟨rfl, by decide +kernel, by decide, by decide, by decide, by unfold InFrame; omega, by unfold InFrame; omega⟩⟩

example : ∃ out, energyFluxOnsets Libm.demo twoClicks 5 2 (-20) = .ok out ∧ out ≠ [] ∧
    ∀ o ∈ out, ∀ t y, twoClicks[t]? = some y → y ≠ 0 → ¬ (t ≤ o + 2 ∧ o ≤ t + 2) :=
  ⟨[10, 20], by decide +kernel, by simp, fun o ho t y ht hy =>
    C117_violated Libm.demo (thrDb := -20) twoClicks_track (by omega) (by norm_num) (by omega) (by simp [twoClicks]) (by decide +kernel)
      (by decide +kernel) o ho t y ht hy⟩

/-- one click at sample 13: equally loud with itself -/
def oneClick : List F32 := List.replicate 13 0 ++ [1] ++ List.replicate 12 0

theorem oneClick_at {s : ℕ} {x : F32} (h : oneClick[s]? = some x) (hx : x ≠ 0) : s = 13 ∧ x = 1 := by
  have hs : s < 26 := (List.getElem?_eq_some_iff.1 h).1
  unfold oneClick at h
  interval_cases s <;> first
    | (exact absurd (Option.some.inj h).symm hx)
    | (exact ⟨rfl, (Option.some.inj h).symm⟩)

example : ∃ out, energyFluxOnsets Libm.demo oneClick 5 2 (-20) = .ok out ∧ out.Pairwise (· < ·) ∧
    ∀ o, o ∈ out ↔ ∃ s x, Enters oneClick 5 2 o s x := by
  refine C117_equal Libm.demo (L := clickLevel 5 1) ⟨?_, ?_⟩ (by norm_num) (by norm_num) (by norm_num)
    (by simp [oneClick]) (by decide +kernel) (by decide +kernel) (by decide +kernel) (by decide +kernel) ?_
  · intro x hx
    by_cases h0 : x = 0
    · rw [h0]; exact zero_ne_nan
    · obtain ⟨s, hs⟩ := List.getElem?_of_mem hx
      rw [(oneClick_at hs h0).2]; decide +kernel
  · intro s t x y hst hs ht hx hy
    have := (oneClick_at hs hx).1
    have := (oneClick_at ht hy).1
    omega
  · intro x hx h0
    obtain ⟨s, hs⟩ := List.getElem?_of_mem hx
    rw [(oneClick_at hs h0).2]
