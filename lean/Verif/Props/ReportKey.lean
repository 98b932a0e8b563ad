/-
Property theorem C89: the key that `analyze_audio` reports (src/lib.rs lines 961-1559).
-/
import Verif.Props.Report

namespace Verif.Props
open Verif Verif.Analyze Verif.Keys Verif.KeyDet F32

theorem clamp_uon (v : F32) : UnitOrNaN (F32.clamp v 0 1) := by
  by_cases h : v = nan
  · left; rw [h]; decide +kernel
  · right; exact clamp01 h

theorem margin_uon (s o : F32) : UnitOrNaN (margin s o) := by
  unfold margin
  split_ifs
  · exact clamp_uon _
  · right; decide +kernel

theorem clarity_uon {l : List (Key × F32)} {q : F32} (h : keyClarity l = .ok q) : UnitOrNaN q := by
  have h0 : UnitOrNaN (0 : F32) := .inr (by decide +kernel)
  unfold keyClarity at h
  split at h
  · cases h; exact h0
  · cases h; exact h0
  · dsimp only at h
    obtain ⟨lo, _, h⟩ := R.bind_eq_ok.1 h
    obtain ⟨hi, _, h⟩ := R.bind_eq_ok.1 h
    split_ifs at h
    · cases h; exact clamp_uon _
    · cases h; exact h0

/-- the value of one of the 24 keys with its confidence -/
structure KeySound (r : Res) : Prop where
  valid : ValidKey r.key
  conf : UnitOrNaN r.conf

theorem detectKey_sound {ord : List (Key × F32) → List (Key × F32)} (hord : ∀ l, (ord l).Perm l) {chroma : List (List F32)}
    {T : Templates} {w : Option (List F32)} {r : Res} (h : detectKey ord chroma T w = .ok r) :
    KeySound r ∧ (r.all.map Prod.fst).Perm allKeys := by
  obtain ⟨s, o, _, m1, _, _, _, ec⟩ := detect_spec hord h
  refine ⟨⟨?_, by rw [ec]; exact margin_uon _ _⟩, (detectKey_all h).1⟩
  exact (validKey_iff _).2 ((detectKey_all h).1.mem_iff.1 (List.mem_map_of_mem m1))

theorem detectWith_sound {ord : List (Key × F32) → List (Key × F32)} (hord : ∀ l, (ord l).Perm l) {chroma : List (List F32)}
    {T : Templates} {w : Option (List F32)} {modeOn bonus : Bool} {tm fm bw : F32} {r : Res}
    (h : detectWith ord chroma T w modeOn tm fm bonus bw = .ok r) : KeySound r ∧ (r.all.map Prod.fst).Perm allKeys := by
  unfold detectWith at h
  split at h
  · refine ⟨⟨?_, ?_⟩, mode_keys h⟩
    · exact (C42_flip_partial ord hord chroma T w tm _ bonus bw r h).2.1
    · obtain ⟨base, hb, e | ⟨_, _, e, _⟩⟩ := mode_ok h
      · rw [e]; exact (detectKey_sound hord hb).1.conf
      · rw [e]; exact margin_uon _ _
  · exact detectKey_sound hord h

/-- a result made of a sorted list of all the keys -/
theorem ranked_sound {l : List (Key × F32)} (h : (l.map Prod.fst).Perm allKeys) (s o : F32) (all top : List (Key × F32)) :
    KeySound ⟨(l.getD 0 (.major 0, 0)).1, margin s o, all, top⟩ :=
  ⟨(validKey_iff _).2 (h.mem_iff.1 (List.mem_map_of_mem (head_mem h))), margin_uon _ _⟩

theorem fold_add_keys (w : F32) : ∀ (l a : List (Key × F32)),
    (l.foldl (fun a p => a.map (fun q => if q.1 = p.1 then (q.1, q.2 + p.2 * w) else q)) a).map Prod.fst = a.map Prod.fst := by
  intro l
  induction l with
  | nil => intro a; rfl
  | cons p l ih =>
    intro a
    rw [List.foldl_cons, ih, List.map_map]
    apply List.map_congr_left
    intro q _
    simp only [Function.comp]
    split_ifs <;> rfl

theorem keys_init : (allKeys.map (fun k => (k, (0 : F32)))).map Prod.fst = allKeys := by
  rw [List.map_map, show ((Prod.fst ∘ fun k => (k, (0 : F32))) : Key → Key) = id from rfl, List.map_id]

theorem accSegment_keys {minC sw : F32} {acc acc' : Acc} {r : Res} (h : accSegment minC sw acc r = .ok acc') :
    acc'.scores.map Prod.fst = acc.scores.map Prod.fst := by
  unfold accSegment at h
  obtain ⟨c, _, h⟩ := R.bind_eq_ok.1 h
  split_ifs at h
  · cases h; exact fold_add_keys _ _ _
  · cases h; rfl

theorem accSegments_keys {det : List (List F32) → Option (List F32) → R Res} {chroma : List (List F32)}
    {w : Option (List F32)} {minC sw : F32} {len : ℕ} : ∀ (starts : List ℕ) (acc acc' : Acc),
    accSegments det chroma w minC sw len starts acc = .ok acc' → acc'.scores.map Prod.fst = acc.scores.map Prod.fst := by
  intro starts
  induction starts with
  | nil => intro acc acc' h; rw [accSegments] at h; cases h; rfl
  | cons s ss ih =>
    intro acc acc' h
    rw [accSegments] at h
    obtain ⟨r, _, h⟩ := R.bind_eq_ok.1 h
    obtain ⟨a, ha, h⟩ := R.bind_eq_ok.1 h
    rw [ih _ _ h, accSegment_keys ha]

theorem accScales_keys {det : List (List F32) → Option (List F32) → R Res} {chroma : List (List F32)}
    {w : Option (List F32)} {minC : F32} {hop : ℕ} {sws : Option (List F32)} : ∀ (lens : List ℕ) (i : ℕ) (acc acc' : Acc),
    accScales det chroma w minC hop sws i lens acc = .ok acc' → acc'.scores.map Prod.fst = acc.scores.map Prod.fst := by
  intro lens
  induction lens with
  | nil => intro i acc acc' h; rw [accScales] at h; cases h; rfl
  | cons len lens ih =>
    intro i acc acc' h
    rw [accScales] at h
    split_ifs at h
    · exact ih _ _ _ h
    · obtain ⟨a, ha, h⟩ := R.bind_eq_ok.1 h
      rw [ih _ _ _ h, accSegments_keys _ _ _ ha]

theorem multiScale_sound {ord : List (Key × F32) → List (Key × F32)} (hord : ∀ l, (ord l).Perm l) {chroma : List (List F32)}
    {T : Templates} {w : Option (List F32)} {lens : List ℕ} {hop : ℕ} {minC : F32} {sws : Option (List F32)} {modeOn bonus : Bool}
    {tm fm bw : F32} {r : Res} (h : detectMultiScale ord chroma T w lens hop minC sws modeOn tm fm bonus bw = .ok r) : KeySound r := by
  unfold detectMultiScale at h
  split_ifs at h
  dsimp only at h
  obtain ⟨acc, ha, h⟩ := R.bind_eq_ok.1 h
  split_ifs at h
  · exact (detectWith_sound hord h).1
  · obtain ⟨scores, hs, h⟩ := R.bind_eq_ok.1 h
    cases h
    refine ranked_sound ?_ _ _ _ _
    have hk := accScales_keys _ _ _ _ ha
    have hp : scores.Perm (acc.scores.map (fun p => (p.1, p.2 / acc.weight))) := by
      unfold sortDescP at hs
      split_ifs at hs
      cases hs
      exact sortDesc_perm _
    refine (hp.map _).trans ?_
    rw [List.map_map, show (Prod.fst ∘ fun p : Key × F32 => (p.1, p.2 / acc.weight)) = Prod.fst from rfl, hk]
    show ((allKeys.map (fun k => (k, (0 : F32)))).map Prod.fst).Perm allKeys
    rw [keys_init]

theorem ensemble_sound {ord ord2 : List (Key × F32) → List (Key × F32)} {chroma : List (List F32)}
    {w : Option (List F32)} {a b : F32} {r : Res} (h : detectEnsemble ord ord2 chroma w a b = .ok r) : KeySound r := by
  unfold detectEnsemble at h
  dsimp only at h
  obtain ⟨kk, _, h⟩ := R.bind_eq_ok.1 h
  obtain ⟨te, _, h⟩ := R.bind_eq_ok.1 h
  simp only [R.pure_eq_ok, Except.ok.injEq] at h
  subst h
  exact ranked_sound (keys_of_map _) _ _ _ _

theorem segLoop_keys {det : List (List F32) → Option (List F32) → R Res} {cs : List (List F32)} {w : Option (List F32)}
    {minC : F32} {len : ℕ} : ∀ (starts : List ℕ) (acc acc' : List (Key × F32) × ℕ),
    Analyze.segLoop det cs w minC len starts acc = .ok acc' → acc'.1.map Prod.fst = acc.1.map Prod.fst := by
  intro starts
  induction starts with
  | nil => intro acc acc' h; rw [Analyze.segLoop] at h; cases h; rfl
  | cons s ss ih =>
    intro acc acc' h
    rw [Analyze.segLoop] at h
    obtain ⟨seg, _, h⟩ := R.bind_eq_ok.1 h
    have hstep : ∀ r q, (addSegment minC q acc r).1.map Prod.fst = acc.1.map Prod.fst := by
      intro r q
      unfold addSegment
      split_ifs
      · exact fold_add_keys _ _ _
      · rfl
    rcases w with _ | ws
    · dsimp only at h
      rw [R.pure_eq_ok, R.ok_bind] at h
      obtain ⟨r, _, h⟩ := R.bind_eq_ok.1 h
      obtain ⟨q, _, h⟩ := R.bind_eq_ok.1 h
      rw [ih _ _ h, hstep]
    · dsimp only at h
      obtain ⟨wseg, _, h⟩ := R.bind_eq_ok.1 h
      rw [R.pure_eq_ok, R.ok_bind] at h
      obtain ⟨r, _, h⟩ := R.bind_eq_ok.1 h
      obtain ⟨q, _, h⟩ := R.bind_eq_ok.1 h
      rw [ih _ _ h, hstep]

theorem segVote_sound {L : Lib} (hord : ∀ l, (L.ord l).Perm l) {c : Config} {cs : List (List F32)} {w : Option (List F32)} {r : Res}
    (h : segVote L c cs w = .ok r) : KeySound r := by
  unfold segVote at h
  dsimp only at h
  obtain ⟨acc, ha, h⟩ := R.bind_eq_ok.1 h
  split_ifs at h
  · exact (detectWith_sound hord h).1
  · obtain ⟨scores, hs, h⟩ := R.bind_eq_ok.1 h
    cases h
    refine ranked_sound ?_ _ _ _ _
    have hk := segLoop_keys _ _ _ ha
    have hp : scores.Perm acc.1 := by
      unfold sortDescP at hs
      split_ifs at hs
      cases hs
      exact sortDesc_perm _
    refine (hp.map _).trans ?_
    rw [hk]
    show ((allKeys.map (fun k => (k, (0 : F32)))).map Prod.fst).Perm allKeys
    rw [keys_init]

theorem keyCall_sound {L : Lib} (hord : ∀ l, (L.ord l).Perm l) {c : Config} {cs : List (List F32)} {w : Option (List F32)} {r : Res}
    (h : keyCall L c cs w = .ok (some r)) : KeySound r := by
  unfold keyCall at h
  split_ifs at h
  · exact ensemble_sound (attempt_some h)
  · exact multiScale_sound hord (attempt_some h)
  · exact multiScale_sound hord (attempt_some h)
  · exact multiScale_sound hord (attempt_some h)
  · exact multiScale_sound hord (attempt_some h)
  · obtain ⟨r', hr, h⟩ := R.bind_eq_ok.1 h
    cases h
    exact segVote_sound hord hr
  · exact (detectWith_sound hord (attempt_some h)).1

/-- **C89.** Whatever the audio and the settings, the key of a successful analysis is one of the 24 keys, its confidence
and clarity are in `[0, 1]` (or NaN), and audio shorter than one frame gives C major with confidence and clarity 0 and
both key warnings. -/
theorem C89_key (L : Lib) (hord : ∀ l, (L.ord l).Perm l) (hf : ∀ x, NumberText (L.fmt x)) (c : Config) (s : List F32) (sr : ℕ)
    (r : Result) (h : analyze L c s sr = .ok r) :
    ValidKey r.key ∧ UnitOrNaN r.keyConf ∧ UnitOrNaN r.keyClarity ∧
    (s.length < c.frame → r.key = .major 0 ∧ r.keyConf = 0 ∧ r.keyClarity = 0 ∧ r.flags = [.weakTonality] ∧
      (∃ w ∈ r.warnings, "confidence".toList <:+: w) ∧ ∃ w ∈ r.warnings, "clarity".toList <:+: w) := by
  obtain ⟨_, _, y, x, _, _, _, hlen, hx⟩ := analyze_inv h
  obtain ⟨energy, spec, ons, leg, t, g, k, _, _, _, _, _, _, h7, rfl⟩ := analyzeTrimmed_inv hx
  generalize Pipeline.selectBpm c.forceLegacy c.enableFusion t.est leg = bpm
  have h0 : UnitOrNaN (0 : F32) := .inr (by decide +kernel)
  have hdef : ValidKey (.major 0) ∧ UnitOrNaN (0 : F32) ∧ UnitOrNaN (0 : F32) := ⟨by decide, h0, h0⟩
  have hgen : ValidKey k.1 ∧ UnitOrNaN k.2.1 ∧ UnitOrNaN k.2.2 := by
    unfold keyPart at h7
    split_ifs at h7
    · obtain ⟨ks0, _, h7⟩ := R.bind_eq_ok.1 h7
      obtain ⟨ks, _, h7⟩ := R.bind_eq_ok.1 h7
      obtain ⟨lg, _, h7⟩ := R.bind_eq_ok.1 h7
      obtain ⟨tu, _, h7⟩ := R.bind_eq_ok.1 h7
      obtain ⟨ch, _, h7⟩ := R.bind_eq_ok.1 h7
      rcases ch with _ | ⟨cs, es⟩
      · cases h7; exact hdef
      · dsimp only at h7
        unfold keyOf at h7
        obtain ⟨cs1, _, h7⟩ := R.bind_eq_ok.1 h7
        obtain ⟨⟨cs2, es2⟩, _, h7⟩ := R.bind_eq_ok.1 h7
        dsimp only at h7
        obtain ⟨r, hr, h7⟩ := R.bind_eq_ok.1 h7
        rcases r with _ | res
        · cases h7; exact hdef
        · dsimp only at h7
          obtain ⟨q, hq, h7⟩ := R.bind_eq_ok.1 h7
          cases h7
          have hs := keyCall_sound hord hr
          exact ⟨hs.valid, hs.conf, clarity_uon hq⟩
    · cases h7; exact hdef
  refine ⟨hgen.1, hgen.2.1, hgen.2.2, ?_⟩
  intro hshort
  have hk : k = (.major 0, 0, 0) := by
    unfold keyPart at h7
    rw [if_neg (by omega)] at h7
    cases h7; rfl
  subst hk
  obtain ⟨_, _, w3, w4, _, w6⟩ := C52_warnings L.fmt hf bpm.1 g.2 0 0
  refine ⟨rfl, rfl, rfl, ?_, w3.2 (by decide +kernel), w4.2 (by decide +kernel)⟩
  show (Pipeline.warnings L.fmt bpm.1 g.2 0 0).2 = _
  rw [w6, if_pos (by decide +kernel)]

-- an analysis that gets as far as a key, and one of audio shorter than a frame
example : ∃ r, analyze quietLib pulseConfig (List.replicate 16 0 ++ pulses) 16 = .ok r ∧ ValidKey r.key := by
  have run := pulse_run
  rcases e : analyze quietLib pulseConfig (List.replicate 16 0 ++ pulses) 16 with err | r
  · rw [e] at run; simp at run
  exact ⟨r, rfl, (C89_key quietLib (fun l => List.Perm.refl l) (fun _ _ h => by simp [quietLib] at h) _ _ _ r e).1⟩

example : (match analyze quietLib { pulseConfig with enableSilenceTrimming := false } [0.5, 0.5] 16 with
    | .ok r => decide (r.key = .major 0) && decide (r.keyConf = 0) | _ => false) = true := by decide +kernel

end Verif.Props
