import Verif.Props.GridSafety

/-! The number of beats of a grid. -/

namespace Verif.Props
open Verif Verif.F32 Verif.Beat

/-- a time between 0 and 8192 seconds (two and a quarter hours) -/
def Hours (o : F32) : Prop := 0 ≤ o ∧ o ≤ 8192

theorem Hours.inRange {o : F32} (h : Hours o) : InRange o :=
  ⟨F32.le_trans (by decide +kernel) h.1, F32.le_trans h.2 (by decide +kernel)⟩

theorem Hours.val {o : F32} (h : Hours o) : ∃ v hv, o = fin v hv ∧ 0 ≤ v ∧ v ≤ 2 ^ 13 := by
  obtain ⟨hP, eP⟩ : ∃ h, (8192 : F32) = fin (2 ^ 13) h := ⟨by decide +kernel, by decide +kernel⟩
  obtain ⟨h1, h2⟩ := h
  rw [eP] at h2
  rw [zero_def] at h1
  exact between_cases h1 h2

theorem frames_count {bpm f l : F32} (hb : ¬ (bpm ≤ EPS ∨ 300 < bpm)) (hf : Hours f) (hl : Hours l) {n : ℕ}
    (h : numFrames bpm f l = .ok n) : n ≤ 2 ^ 16 + 1 := by
  obtain ⟨x, hx, rfl, x1, x2⟩ := hf.val
  obtain ⟨y, hy, rfl, y1, y2⟩ := hl.val
  have hmain : (F32.ceil ((fin y hy - fin x hx) / (60 / bpm))).toUsize ≤ 2 ^ 16 := by
    rcases bpm with _ | s | ⟨p, hp⟩
    · have : (fin y hy - fin x hx) / (60 / (nan : F32)) = nan := by simp
      rw [this]; simp [F32.ceil, F32.toUsize]
    · cases s
      · exact absurd (Or.inr (by decide +kernel)) hb
      · exact absurd (Or.inl (by decide +kernel)) hb
    · obtain ⟨hE, eE⟩ : ∃ h, EPS = fin EPS.val h := ⟨by decide +kernel, by decide +kernel⟩
      obtain ⟨h3, e3⟩ : ∃ h, (300 : F32) = fin 300 h := ⟨by decide +kernel, by decide +kernel⟩
      push Not at hb
      rw [eE, e3] at hb
      have p1 : EPS.val < p := not_le.1 (fun hc => hb.1 (fin_le_fin.2 hc))
      have p2 : p ≤ 300 := not_lt.1 (fun hc => hb.2 (fin_lt_fin.2 hc))
      exact frames_le p1 p2 (k := 13) (by norm_num) (by linarith)
  unfold numFrames at h
  dsimp only at h
  split_ifs at h
  obtain rfl := Except.ok.inj h
  omega

/-- the beats of one tracking pass: at most `2^16 + 1`, each near an onset -/
theorem track_count {M : Libm} (hM : ExpSmall M) {bpm : F32} {onsets : List F32} (ho : ∀ o ∈ onsets, Hours o) {bs : List BeatPos}
    (h : trackBeats M bpm onsets = .ok bs) : bs.length ≤ 2 ^ 16 + 1 ∧ ∀ b ∈ bs, ∃ v hv, b.time = fin v hv ∧ -1 ≤ v ∧ v ≤ 2 ^ 13 + 1 := by
  by_cases hb : bpm ≤ EPS ∨ 300 < bpm
  · unfold trackBeats at h; rw [if_pos hb] at h; simp [R.err] at h
  by_cases hne : onsets = []
  · unfold trackBeats at h; rw [if_neg hb, if_pos hne] at h; simp [R.err] at h
  obtain ⟨first, hf⟩ : ∃ a, onsets.head? = some a := by
    cases onsets with
    | nil => exact absurd rfl hne
    | cons a l => exact ⟨a, rfl⟩
  have hl : onsets.getLast? = some (onsets.getLast hne) := List.getLast?_eq_some_getLast hne
  obtain ⟨n, hn⟩ := frames_ok hb (ho first (List.mem_of_mem_head? hf)).inRange (ho _ (List.getLast_mem hne)).inRange
  have hn' := frames_count hb (ho first (List.mem_of_mem_head? hf)) (ho _ (List.getLast_mem hne)) hn
  rw [trackBeats_eq hb hf hl, hn] at h
  have hp := (sortAscP_ok (show sortAscP BeatPos.time (lattice M bpm first onsets n) = .ok bs from h)).2.1
  refine ⟨?_, fun b hbm => ?_⟩
  · rw [hp.length_eq]
    unfold lattice
    refine (List.length_filterMap_le _ _).trans ?_
    simpa using hn'
  · obtain ⟨t, _, he, hbt⟩ := mem_lattice.1 (hp.mem_iff.1 hbm)
    obtain ⟨o, hom, hod⟩ := near_onset hM he
    rw [(beatAt_conf hbt).1]
    generalize frameTime bpm first t = w at *
    obtain ⟨x, hx, rfl, x1, x2⟩ := (ho o hom).val
    rcases w with _ | s | ⟨w, hw⟩
    · exact absurd hod (by rw [show (fin x hx : F32) - nan = nan from rfl]; decide +kernel)
    · exfalso
      cases s
      · exact absurd hod (by rw [show (fin x hx : F32) - inf false = inf true from rfl]; decide +kernel)
      · exact absurd hod (by rw [show (fin x hx : F32) - inf true = inf false from rfl]; decide +kernel)
    · rw [sub_fin, abs_rnd] at hod
      by_cases hc : 1 ≤ |x - w|
      · exfalso
        have h2 : rnd 1 ≤ rnd |x - w| := rnd_mono hc
        exact absurd (F32.le_trans h2 hod) (by decide +kernel)
      · have := abs_lt.1 (not_le.1 hc)
        exact ⟨w, hw, rfl, by linarith [this.1, this.2], by linarith [this.1, this.2]⟩

theorem segLoop_count {beats : List F32} {nominal dur : F32} {L d : ℚ} {hL hs} (hLb : L ≤ 2 ^ 24) (h4 : 4 ≤ d) (h8 : d ≤ 8)
    (hd : dur - dur * 0.5 = fin (d / 2) hs) : ∀ (fuel : ℕ) (v : ℚ) (hv) (segs : List Seg), -2 ^ 24 ≤ v →
    segLoop beats nominal (fin L hL) dur fuel (fin v hv) = .ok segs → segs = [] ∨ (segs.length : ℚ) ≤ 2 * (L - v) + 1
  | 0, _, _, _, _, h => by simp [segLoop, R.outOfFuel] at h
  | fuel + 1, v, hv, segs, hlo, h => by
    rw [segLoop] at h
    split_ifs at h with hc
    · obtain ⟨rest, hr, h⟩ := R.bind_eq_ok.1 h
      obtain rfl := Except.ok.inj h
      have h1 := fin_lt_fin.1 hc
      obtain ⟨w, hw, e, hp⟩ := step_progress (hv := hv) (hs := hs) (_root_.abs_le.2 ⟨by linarith, by linarith⟩) h4 h8
      rw [hd, e] at hr
      have hrec := segLoop_count hLb h4 h8 hd fuel w hw rest (by linarith) hr
      have h2 : (window beats nominal (fin L hL) dur (fin v hv)).length ≤ 1 := by
        unfold window
        dsimp only
        split_ifs <;> simp
      have h2' : ((window beats nominal (fin L hL) dur (fin v hv)).length : ℚ) ≤ 1 := by exact_mod_cast h2
      right
      rw [List.length_append]
      push_cast
      rcases hrec with rfl | hrec
      · simp only [List.length_nil, Nat.cast_zero]; linarith
      · linarith
    · obtain rfl := Except.ok.inj h
      exact .inl rfl

theorem tempoSegments_count {fuel : ℕ} {beats : List F32} {nominal : F32} {segs : List Seg}
    (hb : ∀ b ∈ beats, ∃ v hv, b = fin v hv ∧ -1 ≤ v ∧ v ≤ 2 ^ 13 + 1)
    (h : tempoSegments fuel beats nominal = .ok segs) : segs.length ≤ 2 ^ 14 + 5 := by
  unfold tempoSegments at h
  split_ifs at h with h1 h2
  · obtain rfl := Except.ok.inj h; simp
  · dsimp only at h
    split_ifs at h with h3
    · obtain rfl := Except.ok.inj h; simp
    · have hne : beats ≠ [] := by rintro rfl; simp at h1
      obtain ⟨r, hr, h⟩ := R.bind_eq_ok.1 h
      obtain rfl := Except.ok.inj h
      obtain ⟨f, hfv, ef, f1, f2⟩ := hb (beats.headD 0) (by cases beats with | nil => simp at hne | cons a l => simp)
      obtain ⟨L, hL, eL, l1, l2⟩ := hb (beats.getLastD 0) (by
        rw [List.getLastD_eq_getLast?, List.getLast?_eq_some_getLast hne]; exact List.getLast_mem hne)
      rw [ef, eL] at hr
      obtain ⟨d, hd, e1, d1, d2, hs, e2⟩ := dur_spec (sub_fin_ne_nan (a := fin L hL) (b := fin f hfv) rfl rfl)
      have hc := segLoop_count (hL := hL) (hs := hs) (by linarith) d1 d2 e2 fuel f hfv r (by linarith) hr
      split_ifs with h5
      · simp
      · rcases hc with hc | hc
        · exact absurd hc h5
        · have : (r.length : ℚ) ≤ ((2 ^ 14 + 5 : ℕ) : ℚ) := by push_cast; linarith
          exact_mod_cast this

theorem refine_count {M : Libm} (hM : ExpSmall M) {fuel : ℕ} {onsets : List F32} (ho : ∀ o ∈ onsets, Hours o) {beats : List BeatPos}
    {K : ℕ} (hK : K = 2 ^ 16 + 1) (hb : beats.length ≤ K) : ∀ {segs : List Seg} {b : Bayes} {out : List BeatPos},
    refine M fuel onsets beats segs b = .ok out → out.length ≤ segs.length * K
  | [], _, out, h => by obtain rfl := Except.ok.inj h; simp
  | s :: segs, b, out, h => by
    rw [refine] at h
    rw [List.length_cons, Nat.succ_mul]
    split_ifs at h with hv
    · dsimp only at h
      split_ifs at h with hso
      · obtain ⟨⟨b', u, c⟩, -, h⟩ := R.bind_eq_ok.1 h
        dsimp only at h
        cases ht : trackBeats M u (onsets.filter (fun o => decide (s.start ≤ o) && decide (o ≤ s.stop))) with
        | ok bs =>
          rw [ht] at h
          dsimp only at h
          rw [R.ok_bind] at h
          obtain ⟨rest, hr, h⟩ := R.bind_eq_ok.1 h
          obtain rfl := Except.ok.inj h
          have h1 := refine_count hM ho hK hb hr
          have h2 : bs.length ≤ K := by
            rw [hK]; exact (track_count hM (fun o h => ho o (List.mem_of_mem_filter h)) ht).1
          rw [List.length_append]
          omega
        | error e =>
          rw [ht] at h
          cases e with
          | err k =>
            dsimp only at h
            rw [R.ok_bind] at h
            obtain ⟨rest, hr, h⟩ := R.bind_eq_ok.1 h
            obtain rfl := Except.ok.inj h
            have h1 := refine_count hM ho hK hb hr
            rw [List.nil_append]
            omega
          | _ =>
            dsimp only at h
            rw [R.error_bind] at h
            exact absurd h (by simp)
      · have h1 := refine_count hM ho hK hb h
        omega
    · obtain ⟨rest, hr, h⟩ := R.bind_eq_ok.1 h
      obtain rfl := Except.ok.inj h
      have h1 := refine_count hM ho hK hb hr
      have h2 := List.length_filter_le (fun (p : BeatPos) => decide (s.start ≤ p.time) && decide (p.time ≤ s.stop)) beats
      rw [List.length_append]
      omega

/-- a grid over onsets in the first 8192 seconds has fewer than `2^31` beats -/
theorem grid_count {M : Libm} (hM : ExpSmall M) {fuel : ℕ} {bpm conf : F32} {onsets : List F32}
    (ho : ∀ o ∈ onsets, Hours o) {g : Grid × F32} (h : beatGrid M fuel bpm conf onsets = .ok g) :
    g.1.beats.length ≤ 2 ^ 30 + 2 ^ 29 := by
  unfold beatGrid at h
  split_ifs at h with h1 h2
  obtain ⟨sorted, hs, h⟩ := R.bind_eq_ok.1 h
  have hmem : ∀ o ∈ sorted, Hours o := fun o h => ho o ((sortAscP_ok hs).2.1.mem_iff.1 h)
  obtain ⟨beats, hb, h⟩ := R.bind_eq_ok.1 h
  obtain ⟨hbl, hbt⟩ := track_count hM hmem hb
  split_ifs at h with h3
  obtain ⟨segs, hsg, h⟩ := R.bind_eq_ok.1 h
  have hsl := tempoSegments_count (fun b hbm => by
    obtain ⟨p, hp, rfl⟩ := List.mem_map.1 hbm
    exact hbt p hp) hsg
  have hrest : ∀ beats' : List BeatPos, beats'.length ≤ 2 ^ 30 + 2 ^ 29 →
      (do
        let (sig, _) ← timeSignature (beats'.map BeatPos.time) bpm
        let grid ← gridOf beats' bpm sig
        let st ← stability beats' bpm
        pure (grid, st) : R (Grid × F32)) = .ok g → g.1.beats.length ≤ 2 ^ 30 + 2 ^ 29 := by
    intro beats' hl h
    obtain ⟨⟨sig, c⟩, -, h⟩ := R.bind_eq_ok.1 h
    obtain ⟨grid, hg, h⟩ := R.bind_eq_ok.1 h
    obtain ⟨st, -, h⟩ := R.bind_eq_ok.1 h
    obtain rfl := Except.ok.inj h
    unfold gridOf at hg
    split_ifs at hg with h6
    obtain ⟨bs, hbs, hg⟩ := R.bind_eq_ok.1 hg
    obtain ⟨ds, -, hg⟩ := R.bind_eq_ok.1 hg
    obtain rfl := Except.ok.inj hg
    show bs.length ≤ 2 ^ 30 + 2 ^ 29
    rw [(sortAscP_ok hbs).2.1.length_eq, List.length_map]
    exact hl
  dsimp only at h
  split_ifs at h with h4
  · obtain ⟨refined, hr, h⟩ := R.bind_eq_ok.1 h
    have hrl := refine_count hM hmem rfl hbl hr
    have hm : segs.length * (2 ^ 16 + 1) ≤ (2 ^ 14 + 5) * (2 ^ 16 + 1) := Nat.mul_le_mul_right _ (by omega)
    split_ifs at h with h5
    · obtain ⟨beats', hb', h⟩ := R.bind_eq_ok.1 h
      exact hrest beats' (by rw [(sortAscP_ok hb').2.1.length_eq]; omega) h
    · rw [R.ok_bind] at h
      exact hrest beats (by omega) h
  · rw [R.ok_bind] at h
    exact hrest beats (by omega) h

end Verif.Props
