/-
Property theorem C88: the beat grid that `analyze_audio` reports (src/lib.rs lines 912-958, beat_tracking/mod.rs).
-/
import Verif.Props.Report

namespace Verif.Props
open Verif Verif.Analyze Verif.Beat F32

/-- a time within 54 ms of one of the given times, in f32 arithmetic -/
def NearOne (times : List F32) (b : F32) : Prop := ∃ o ∈ times, (o - b).abs ≤ 0.054

theorem refine_near {M : Libm} (hM : ExpSmall M) {fuel : ℕ} {onsets : List F32} {bts : List BeatPos}
    (hb : ∀ b ∈ bts, NearOne onsets b.time) :
    ∀ (segs : List Seg) (b : Bayes) (out : List BeatPos), refine M fuel onsets bts segs b = .ok out →
      ∀ p ∈ out, NearOne onsets p.time := by
  intro segs
  induction segs with
  | nil => intro b out h; rw [refine] at h; cases h; simp
  | cons s segs ih =>
    intro b out h
    rw [refine] at h
    dsimp only at h
    split_ifs at h with h1 h2
    · obtain ⟨⟨b', ubpm, u⟩, _, h⟩ := R.bind_eq_ok.1 h
      dsimp only at h
      rcases ht : trackBeats M ubpm (onsets.filter (fun o => decide (s.start ≤ o) && decide (o ≤ s.stop))) with e | l
      · rw [ht] at h
        rcases e with k | _ | _
        · dsimp only at h
          rw [R.ok_bind] at h
          obtain ⟨rest, hr, h⟩ := R.bind_eq_ok.1 h
          cases h
          exact ih _ _ hr
        · simp at h
        · simp at h
      · rw [ht] at h
        dsimp only at h
        rw [R.ok_bind] at h
        obtain ⟨rest, hr, h⟩ := R.bind_eq_ok.1 h
        cases h
        intro p hp
        rcases List.mem_append.1 hp with hp | hp
        · obtain ⟨o, ho, h3⟩ := C33_beats_near_onsets M hM ubpm _ l ht p hp
          exact ⟨o, (List.mem_filter.1 ho).1, h3⟩
        · exact ih _ _ hr p hp
    · exact ih _ _ h
    · obtain ⟨rest, hr, h⟩ := R.bind_eq_ok.1 h
      cases h
      intro p hp
      rcases List.mem_append.1 hp with hp | hp
      · exact hb p (List.mem_filter.1 hp).1
      · exact ih _ _ hr p hp

theorem beatGrid_near {M : Libm} (hM : ExpSmall M) {fuel : ℕ} {bpm conf : F32} {onsets : List F32} {g : Grid} {st : F32}
    (h : beatGrid M fuel bpm conf onsets = .ok (g, st)) :
    (∀ b ∈ g.beats, NearOne onsets b) ∧
    ∃ bts : List BeatPos, g.beats.Perm (bts.map BeatPos.time) ∧ stability bts bpm = .ok st := by
  unfold beatGrid at h
  split_ifs at h with h1 h2
  obtain ⟨sorted, hs, h⟩ := R.bind_eq_ok.1 h
  obtain ⟨bts, hb, h⟩ := R.bind_eq_ok.1 h
  split_ifs at h with h3
  obtain ⟨segs, _, h⟩ := R.bind_eq_ok.1 h
  obtain ⟨_, hperm, _⟩ := sortAscP_ok hs
  have hnear := C33_beats_near_onsets M hM bpm sorted bts hb
  have hfin : ∀ l : List BeatPos, (∀ b ∈ l, NearOne sorted b.time) →
      (do let (sig, _) ← timeSignature (l.map BeatPos.time) bpm
          let grid ← gridOf l bpm sig
          let st ← stability l bpm
          pure (grid, st) : R (Grid × F32)) = .ok (g, st) →
      (∀ b ∈ g.beats, NearOne onsets b) ∧
        ∃ bts : List BeatPos, g.beats.Perm (bts.map BeatPos.time) ∧ stability bts bpm = .ok st := by
    intro l hl h
    obtain ⟨⟨sig, _⟩, _, h⟩ := R.bind_eq_ok.1 h
    obtain ⟨grid, hg, h⟩ := R.bind_eq_ok.1 h
    obtain ⟨st', hst, h⟩ := R.bind_eq_ok.1 h
    cases h
    have hp := (gridOf_spec hg).2.2.1
    refine ⟨?_, l, hp, hst⟩
    intro b hb
    obtain ⟨p, hp', rfl⟩ := List.mem_map.1 (hp.mem_iff.1 hb)
    obtain ⟨o, ho, h5⟩ := hl p hp'
    exact ⟨o, hperm.mem_iff.1 ho, h5⟩
  dsimp only at h
  split_ifs at h with h4
  · obtain ⟨r, hr, h⟩ := R.bind_eq_ok.1 h
    have hrn := refine_near hM hnear _ _ _ hr
    split_ifs at h with h5
    · obtain ⟨l, hl, h⟩ := R.bind_eq_ok.1 h
      obtain ⟨_, hp, _⟩ := sortAscP_ok hl
      exact hfin l (fun b hb => hrn b (hp.mem_iff.1 hb)) h
    · exact hfin bts hnear h
  · exact hfin bts hnear h

/-- a time near one in `[0, 2^64]` is far from overflow -/
theorem near_onset_bounded {o b : F32} (h0 : 0 ≤ o) (h1 : o ≤ rnd (pow2 64)) (h : (o - b).abs ≤ 0.054) :
    -rnd (pow2 100) ≤ b ∧ b ≤ rnd (pow2 100) := by
  obtain ⟨hP, eP⟩ : ∃ h, rnd (pow2 64) = fin (pow2 64) h := ⟨by decide +kernel, by decide +kernel⟩
  obtain ⟨hQ, eQ⟩ : ∃ h, rnd (pow2 100) = fin (pow2 100) h := ⟨by decide +kernel, by decide +kernel⟩
  obtain ⟨hR, eR⟩ : ∃ h, -rnd (pow2 100) = fin (-pow2 100) h := ⟨by decide +kernel, by decide +kernel⟩
  have hpq : (pow2 64 : ℚ) * 2 ≤ pow2 100 ∧ (4 : ℚ) ≤ pow2 64 := by decide +kernel
  rw [eP] at h1
  obtain ⟨x, hx, rfl, x0, x1⟩ := between_cases (by rw [← zero_def]; exact h0) h1
  rw [eR, eQ]
  rcases b with _ | s | ⟨y, hy⟩
  · exact absurd h (by rw [show (fin x hx : F32) - nan = nan from rfl]; decide +kernel)
  · exfalso
    cases s
    · rw [show (fin x hx : F32) - F32.inf false = F32.inf true from rfl] at h; exact absurd h (by decide +kernel)
    · rw [show (fin x hx : F32) - F32.inf true = F32.inf false from rfl] at h; exact absurd h (by decide +kernel)
  rw [sub_fin] at h
  rw [fin_le_fin, fin_le_fin]
  have h64 : ∃ h, (1 : F32) = fin 1 h := ⟨by decide +kernel, by decide +kernel⟩
  have key1 : x - y < 2 := by
    by_contra hc
    have h2 : rnd 2 ≤ rnd (x - y) := rnd_mono (not_lt.1 hc)
    have h3 : (1 : F32) ≤ (rnd (x - y)).abs := by
      have h4 : (1 : F32) ≤ rnd (x - y) := F32.le_trans (by decide +kernel) h2
      rcases nonneg_cases (F32.le_trans (by decide +kernel) h4) with h5 | ⟨q, hq, h5, h6⟩
      · rw [h5]; decide +kernel
      · rw [h5] at h4 ⊢; rw [abs_fin]; rw [one_def, fin_le_fin] at h4 ⊢; exact _root_.le_trans h4 (le_abs_self q)
    exact absurd (F32.le_trans h3 h) (by decide +kernel)
  have key2 : -2 < x - y := by
    by_contra hc
    have h2 : rnd (x - y) ≤ rnd (-2) := rnd_mono (not_lt.1 hc)
    have h3 : (1 : F32) ≤ (rnd (x - y)).abs := by
      rcases h5 : rnd (x - y) with _ | s | ⟨q, hq⟩
      · exact absurd h5 (rnd_ne_nan _)
      · cases s <;> decide +kernel
      · rw [h5] at h2
        rw [abs_fin]
        obtain ⟨hm, em⟩ : ∃ h, rnd (-2) = fin (-2) h := ⟨by decide +kernel, by decide +kernel⟩
        rw [em, fin_le_fin] at h2
        rw [one_def, fin_le_fin]
        rw [abs_of_nonpos (by linarith)]; linarith
    exact absurd (F32.le_trans h3 h) (by decide +kernel)
  constructor <;> linarith [hpq.1, hpq.2]

/-- **C88.** The beat grid of a successful analysis.  Without beats it is empty altogether, the stability is 0 and the
stability warning is given.  With beats the reported tempo is in `(0, 300]`, the beats are in order, the downbeats are
some of them and start with the first, bars are downbeats, successive downbeats are a bar of 4, 3 or 6 beats at the
reported tempo apart (up to 10 percent), and every beat is within 54 ms of an onset of the analysed audio, a sample
position inside it; the stability is in `[0, 1]`. -/
theorem C88_grid (L : Lib) (hM : ExpSmall L.M) (hf : ∀ x, NumberText (L.fmt x)) (c : Config) (s : List F32) (sr : ℕ) (r : Result)
    (hn : s.length ≤ 2 ^ 31) (hsr : sr < 2 ^ 32) (h : analyze L c s sr = .ok r) :
    (r.grid.beats = [] → r.grid.downbeats = [] ∧ r.grid.bars = [] ∧ r.stability = 0 ∧ ∃ w ∈ r.warnings, "stability".toList <:+: w) ∧
    (r.grid.beats ≠ [] → (0 < r.bpm ∧ r.bpm ≤ 300) ∧ r.grid.beats.Pairwise (· ≤ ·) ∧
      r.grid.downbeats.head? = r.grid.beats.head? ∧ r.grid.downbeats.Sublist r.grid.beats ∧ r.grid.bars = r.grid.downbeats ∧
      (∃ n : ℕ, (n = 4 ∨ n = 3 ∨ n = 6) ∧ r.grid.downbeats.IsChain
        (fun a b => (b - (a + 60 / r.bpm * F32.ofNat n)).abs ≤ 60 / r.bpm * F32.ofNat n * 0.1)) ∧
      (∀ b ∈ r.grid.beats, ∃ i : ℕ, i < s.length ∧ 0 ≤ F32.ofNat i / F32.ofNat sr ∧ F32.ofNat i / F32.ofNat sr ≤ r.duration ∧
        (F32.ofNat i / F32.ofNat sr - b).abs ≤ 0.054) ∧
      (r.grid.beats.length < 2 ^ 64 → 0 ≤ r.stability ∧ r.stability ≤ 1)) := by
  obtain ⟨_, hsr0, y, x, _, _, _, hlen, hx⟩ := analyze_inv h
  obtain ⟨energy, spec, ons, leg, t, g, k, h1, h2, h3, h4, h5, h6, h7, rfl⟩ := analyzeTrimmed_inv hx
  have hlt := onsets_lt (Nat.le_trans hlen hn) (energy_lt h1) h3
  generalize Pipeline.selectBpm c.forceLegacy c.enableFusion t.est leg = bpm at h6 ⊢
  have hempty : g = (⟨[], [], []⟩, 0) →
      ((report L x.length sr energy t bpm g k).grid.beats = [] → (report L x.length sr energy t bpm g k).grid.downbeats = [] ∧
        (report L x.length sr energy t bpm g k).grid.bars = [] ∧ (report L x.length sr energy t bpm g k).stability = 0 ∧
        ∃ w ∈ (report L x.length sr energy t bpm g k).warnings, "stability".toList <:+: w) ∧
      (report L x.length sr energy t bpm g k).grid.beats = [] := by
    rintro rfl
    refine ⟨fun _ => ⟨rfl, rfl, rfl, ?_⟩, rfl⟩
    exact (C52_warnings L.fmt hf bpm.1 0 k.2.1 k.2.2).2.1.2 (by decide +kernel)
  unfold Analyze.beats at h6
  split_ifs at h6 with hb
  swap
  · cases h6
    obtain ⟨a, b⟩ := hempty rfl
    exact ⟨a, fun hne => absurd b hne⟩
  rcases orElse_ok h6 with hg | ⟨_, hg⟩
  swap
  · obtain ⟨a, b⟩ := hempty hg
    exact ⟨a, fun hne => absurd b hne⟩
  obtain ⟨grid, st⟩ := g
  obtain ⟨hbpm, _⟩ := beatGrid_ok hg
  obtain ⟨g1, g2, g3, g4, g5, g6⟩ := C27_grid L.M L.fuel _ _ _ grid st hg
  obtain ⟨n1, bts, hperm, hst⟩ := beatGrid_near hM hg
  have h300 : bpm.1 ≤ 300 := le_of_not_lt (ne_nan_right (F32.le_of_lt hb.1)) (by decide +kernel) (fun h => hbpm (.inr h))
  have hsrp : 0 < F32.ofNat sr := ofNat_pos (by omega)
  have hfinsr : (F32.ofNat sr).isFinite = true := ofNat_finite (Nat.le_trans hsr.le (by norm_num))
  have hone : ∀ i : ℕ, i ≤ x.length → F32.ofNat i / F32.ofNat sr ≠ nan := by
    intro i hi
    have hfi : (F32.ofNat i).isFinite = true := ofNat_finite (by omega)
    obtain ⟨a, ha, ea⟩ := isFinite_iff.1 hfi
    obtain ⟨b, hb', eb⟩ := isFinite_iff.1 hfinsr
    rw [ea, eb]
    rw [eb, zero_def, fin_lt_fin] at hsrp
    rw [div_fin (_root_.ne_of_gt hsrp)]
    exact rnd_ne_nan _
  have hnear : ∀ b ∈ grid.beats, ∃ i : ℕ, i < x.length ∧ 0 ≤ F32.ofNat i / F32.ofNat sr ∧
      F32.ofNat i / F32.ofNat sr ≤ F32.ofNat x.length / F32.ofNat sr ∧ (F32.ofNat i / F32.ofNat sr - b).abs ≤ 0.054 := by
    intro b hb'
    obtain ⟨o, ho, h8⟩ := n1 b hb'
    obtain ⟨i, hi, rfl⟩ := List.mem_map.1 ho
    have hi' := hlt i hi
    exact ⟨i, hi', F32.div_nonneg (ofNat_nonneg i) (F32.le_of_lt hsrp) (hone i hi'.le),
      div_le_div_right (ofNat_mono hi'.le) hsrp (hone i hi'.le) (hone _ (Nat.le_refl _)), h8⟩
  refine ⟨fun he => absurd he g1, fun _ => ⟨⟨hb.1, h300⟩, g2, g3, g4, g5, g6, ?_, ?_⟩⟩
  · intro b hb'
    obtain ⟨i, hi, h8⟩ := hnear b hb'
    exact ⟨i, Nat.lt_of_lt_of_le hi hlen, h8⟩
  · intro hl
    have hdur : F32.ofNat x.length / F32.ofNat sr ≤ rnd (pow2 64) := by
      have a1 : F32.ofNat x.length ≤ F32.ofNat (2 ^ 31) := ofNat_mono (Nat.le_trans hlen hn)
      obtain ⟨a, ha, ea⟩ := isFinite_iff.1 (ofNat_finite (n := x.length) (by omega))
      obtain ⟨b, hb', eb⟩ := isFinite_iff.1 hfinsr
      obtain ⟨hP, eP⟩ : ∃ h, F32.ofNat (2 ^ 31) = fin (2 ^ 31) h := ⟨by decide +kernel, by decide +kernel⟩
      have b1 : 1 ≤ F32.ofNat sr := one_le_ofNat (by omega)
      rw [ea, eP, fin_le_fin] at a1
      rw [eb, one_def, fin_le_fin] at b1
      rw [ea, eb, div_fin (by linarith)]
      have a0 := ofNat_nonneg x.length
      rw [ea, zero_def, fin_le_fin] at a0
      refine rnd_mono ?_
      have : a / b ≤ a := div_le_self a0 b1
      have h64 : (2 ^ 31 : ℚ) ≤ pow2 64 := by decide +kernel
      linarith
    refine C30_range_partial bts bpm.1 st ?_ ?_ hst
    · have := hperm.length_eq
      rw [List.length_map] at this
      have h9 : (report L x.length sr energy t bpm (grid, st) k).grid.beats.length = grid.beats.length := rfl
      rw [h9] at hl
      omega
    · intro p hp
      obtain ⟨i, hi, i0, i1, i2⟩ := hnear p.time (hperm.mem_iff.2 (List.mem_map_of_mem hp))
      exact near_onset_bounded i0 (F32.le_trans i1 hdur) i2

theorem expSmall_demo : ExpSmall Libm.demo := by
  intro x hx
  have h2 : x < -2 := lt_of_le_of_lt hx (by decide +kernel)
  have h0 : x ≤ 0 := F32.le_of_lt (lt_of_lt_of_le h2 (by decide +kernel))
  show ¬ _ < (if x ≤ 0 then (if x < -2 then (0 : F32) else 0.5) else 1)
  rw [if_pos h0, if_pos h2]
  decide +kernel

-- the six pulses give a grid with beats, to which the theorem applies; a constant signal gives none
example : ∃ r, analyze quietLib pulseConfig (List.replicate 16 0 ++ pulses) 16 = .ok r ∧ r.grid.beats ≠ [] ∧ r.bpm ≤ 300 ∧
    ∀ b ∈ r.grid.beats, ∃ i : ℕ, i < 112 ∧ (F32.ofNat i / F32.ofNat 16 - b).abs ≤ 0.054 := by
  have run := pulse_run
  rcases e : analyze quietLib pulseConfig (List.replicate 16 0 ++ pulses) 16 with err | r
  · rw [e] at run; simp at run
  rw [e] at run
  have hne := of_decide_eq_true run
  have h := (C88_grid quietLib expSmall_demo (fun _ _ h => by simp [quietLib] at h) pulseConfig (List.replicate 16 0 ++ pulses) 16 r (by decide +kernel)
    (by decide) e).2 hne
  refine ⟨r, rfl, hne, h.1.2, fun b hb => ?_⟩
  obtain ⟨i, hi, _, _, h3⟩ := h.2.2.2.2.2.2.1 b hb
  exact ⟨i, hi, h3⟩

example : (match analyze quietLib pulseConfig [0.5, 0.5, 0.5, 0.5, 0.5, 0.5, 0.5, 0.5] 16 with
    | .ok r => decide (r.grid.beats = []) && decide (r.stability = 0) | _ => false) = true := by decide +kernel

end Verif.Props
