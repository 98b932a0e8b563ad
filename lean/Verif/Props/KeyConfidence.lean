/-
Property theorems C99: what the key confidence says.
-/
import Verif.Props.SegmentVote
import Verif.Props.WholeKey
import Verif.Props.KeyChanges
import Verif.Props.SameAnswer

namespace Verif.Props
open Verif Verif.Keys Verif.KeyDet Verif.Analyze F32

/-- some frame with a pitch class of at least 0.01 counts (with at least a weight of 1e-4) -/
def Sounding (cs : List (List F32)) (w : Option (List F32)) : Prop :=
  ∃ f, (∃ x ∈ f, 0.01 ≤ x) ∧ match w with
    | none => f ∈ cs
    | some ws => ∃ v, (f, v) ∈ cs.zip ws ∧ 1e-4 ≤ v

theorem fold_weighted {t : List F32} : ∀ (l : List (List F32 × F32)) (acc : F32), 0 ≤ acc →
    (∀ p ∈ l, 0 ≤ p.2 * dot p.1 t) →
    acc ≤ l.foldl (fun acc p => if 0 < p.2 then acc + p.2 * dot p.1 t else acc) acc ∧
      ∀ p ∈ l, 0 < p.2 → p.2 * dot p.1 t ≤ l.foldl (fun acc p => if 0 < p.2 then acc + p.2 * dot p.1 t else acc) acc := by
  intro l
  induction l with
  | nil => intro acc ha _; exact ⟨F32.le_refl (ne_nan_right ha), fun p hp => by simp at hp⟩
  | cons q l ih =>
    intro acc ha h
    have hq := h q (List.mem_cons_self ..)
    rw [List.foldl_cons]
    have hacc : acc ≤ (if 0 < q.2 then acc + q.2 * dot q.1 t else acc) := by
      split_ifs
      · exact le_add_right ha hq
      · exact F32.le_refl (ne_nan_right ha)
    obtain ⟨i1, i2⟩ := ih _ (F32.le_trans ha hacc) (fun p hp => h p (List.mem_cons_of_mem _ hp))
    refine ⟨F32.le_trans hacc i1, fun p hp hp0 => ?_⟩
    rcases List.mem_cons.1 hp with rfl | hp
    · refine F32.le_trans ?_ i1
      rw [if_pos hp0]
      exact le_add_left ha hq
    · exact i2 p hp hp0

theorem match_sounding {cs : List (List F32)} {w : Option (List F32)} (hc : ChromaInput cs w) (hs : Sounding cs w) {t : List F32}
    (ht : t.length = 12 ∧ ∀ x ∈ t, 0.1 ≤ x ∧ x ≤ 1) : 1e-9 < weightedSumDot cs w t := by
  obtain ⟨f, hf, hm⟩ := hs
  have ht0 : ∀ x ∈ t, 0 ≤ x ∧ x ≤ 1 := fun x hx => ⟨F32.le_trans (by decide +kernel) (ht.2 x hx).1, (ht.2 x hx).2⟩
  rcases w with _ | ws
  · have e : weightedSumDot cs none t = F32.sum (cs.map (fun c => dot c t)) := by
      unfold weightedSumDot F32.sum
      rw [List.foldl_map]
    rw [e]
    refine F32.lt_of_lt_of_le (dot_audible ⟨(hc.rows f hm).1, (hc.rows f hm).2, hf⟩ ht).2 (le_sum ?_ (List.mem_map_of_mem hm))
    intro y hy
    obtain ⟨c', hc', rfl⟩ := List.mem_map.1 hy
    exact (dot_bound (hc.rows c' hc').2 ht0 (by rw [(hc.rows c' hc').1])).1
  · obtain ⟨v, hv, hv1⟩ := hm
    have hfm := (List.of_mem_zip hv).1
    have hvm := (List.of_mem_zip hv).2
    have hd := dot_audible_big ⟨(hc.rows f hfm).1, (hc.rows f hfm).2, hf⟩ ht
    have hfin : ∀ p ∈ cs.zip ws, 0 ≤ p.2 * dot p.1 t := by
      intro p hp
      have h1 := (List.of_mem_zip hp).1
      have h2 := hc.weights ws rfl p.2 (List.of_mem_zip hp).2
      have h3 := dot_bound (hc.rows p.1 h1).2 ht0 (by rw [(hc.rows p.1 h1).1])
      refine mul_nonneg h2.1 h3.1 (mul_fin_ne_nan (isFinite_of_between (by decide +kernel) (by decide +kernel) h2.1 h2.2)
        (isFinite_of_between (by decide +kernel) (by decide +kernel) h3.1 h3.2))
    have hp0 : 0 < v := F32.lt_of_lt_of_le (by decide +kernel) hv1
    have := (fold_weighted (t := t) (cs.zip ws) 0 (by decide +kernel) hfin).2 (f, v) hv hp0
    unfold weightedSumDot
    refine F32.lt_of_lt_of_le ?_ this
    show 1e-9 < v * dot f t
    have n1 : v * dot f t ≠ nan := ne_nan_right (hfin _ hv)
    have hw := hc.weights ws rfl v hvm
    have hdf : (dot f t).isFinite = true :=
      isFinite_of_between (by decide +kernel) (by decide +kernel) hd.1 (dot_bound (hc.rows f hfm).2 ht0 (by rw [(hc.rows f hfm).1])).2
    have h1 : (1e-4 : F32) * (0.01 * 0.1) ≤ 1e-4 * dot f t :=
      F32.mul_le_mul_of_nonneg_left hd.2 (by decide +kernel) (by decide +kernel) (mul_fin_ne_nan (by decide +kernel) hdf)
    have h2 : (1e-4 : F32) * dot f t ≤ v * dot f t :=
      F32.mul_le_mul_of_nonneg_right hv1 hd.1 (mul_fin_ne_nan (by decide +kernel) hdf) n1
    exact F32.lt_of_lt_of_le (by decide +kernel) (F32.le_trans h1 h2)

theorem full_templates (c : Config) : FullTemplates (templates c) := by
  unfold templates
  split_ifs <;> exact ⟨by decide +kernel, by decide +kernel⟩

/-- `i` is the best major key and `j` the best minor key, without ties -/
def Leads (cs : List (List F32)) (w : Option (List F32)) (T : Templates) (i j : ℕ) : Prop :=
  ValidKey (.major i) ∧ ValidKey (.minor j) ∧
  (∀ k, ValidKey (.major k) → k ≠ i → matchScore cs T w (.major k) < matchScore cs T w (.major i)) ∧
  ∀ k, ValidKey (.minor k) → k ≠ j → matchScore cs T w (.minor k) < matchScore cs T w (.minor j)

theorem getMajor_full {T : Templates} (hT : FullTemplates T) (k : ℕ) :
    (T.getMajor k).length = 12 ∧ ∀ x ∈ T.getMajor k, 0.1 ≤ x ∧ x ≤ 1 := hT.1 _

theorem getMinor_full {T : Templates} (hT : FullTemplates T) (k : ℕ) :
    (T.getMinor k).length = 12 ∧ ∀ x ∈ T.getMinor k, 0.1 ≤ x ∧ x ≤ 1 := hT.2 _

theorem unit_of_full {T : Templates} (hT : FullTemplates T) : UnitTemplates T :=
  ⟨fun k x hx => ⟨F32.le_trans (by decide +kernel) ((hT.1 k).2 x hx).1, ((hT.1 k).2 x hx).2⟩,
    fun k x hx => ⟨F32.le_trans (by decide +kernel) ((hT.2 k).2 x hx).1, ((hT.2 k).2 x hx).2⟩⟩

/-- a detection on sounding frames: the confidence is zero -/
theorem detect_zero {ord : List (Key × F32) → List (Key × F32)} (hord : ∀ l, (ord l).Perm l) {cs : List (List F32)}
    {w : Option (List F32)} {T : Templates} (hc : ChromaInput cs w) (hT : FullTemplates T) (hs : Sounding cs w) {r : Res}
    (h : detectKey ord cs T w = .ok r) : r.conf = 0 :=
  (C59_violated ord hord cs w T hc (unit_of_full hT) r h ⟨0, by decide, match_sounding hc hs (getMajor_full hT 0)⟩
    ⟨0, by decide, match_sounding hc hs (getMinor_full hT 0)⟩).1

theorem valid_zero : ValidKey (.major 0) ∧ ValidKey (.minor 0) := by decide

/-- ... and the two leaders share the largest score -/
theorem detect_leaders {ord : List (Key × F32) → List (Key × F32)} {cs : List (List F32)}
    {w : Option (List F32)} {T : Templates} (hc : ChromaInput cs w) (hT : FullTemplates T) (hs : Sounding cs w) {i j : ℕ}
    (hl : Leads cs w T i j) {r : Res} (h : detectKey ord cs T w = .ok r) :
    (.major i, topScore 1) ∈ r.all ∧ (.minor j, topScore 1) ∈ r.all ∧ ∀ p ∈ r.all, p.2 ≤ topScore 1 := by
  have hR := raw_scored hc (unit_of_full hT)
  have hM' : 1e-9 < modeMax true (rawScores cs T w) := by
    rw [hR.modeMax_eq]
    exact F32.lt_of_lt_of_le (match_sounding hc hs (getMajor_full hT 0))
      ((hR.top true).2.2 (.major 0, matchScore cs T w (.major 0)) (raw_mem.2 ⟨valid_zero.1, rfl⟩) rfl)
  have hm' : 1e-9 < modeMax false (rawScores cs T w) := by
    rw [hR.modeMax_eq]
    exact F32.lt_of_lt_of_le (match_sounding hc hs (getMinor_full hT 0))
      ((hR.top false).2.2 (.minor 0, matchScore cs T w (.minor 0)) (raw_mem.2 ⟨valid_zero.2, rfl⟩) rfl)
  obtain ⟨kM, km, h1, h2, h3, h4, h5, h6, h7, h8⟩ := both_modes hc (unit_of_full hT) hM' hm'
  have hall := (detectKey_ok h).2.1
  have hv : ∀ p ∈ refineScores (normScores (rawScores cs T w)), ValidKey p.1 := by
    intro p hp
    have : p ∈ r.all := by rw [hall, mem_sortDesc]; exact hp
    exact (validKey_iff _).2 ((detectKey_all h).1.mem_iff.1 (List.mem_map_of_mem this))
  have eM : kM = .major i := by
    rcases kM with k | k
    · by_contra hne
      exact not_le_of_lt (hl.2.2.1 k (hv _ h3) (fun e => hne (by rw [e]))) (h7 _ hl.1 rfl)
    · simp [isMajor] at h1
  have em : km = .minor j := by
    rcases km with k | k
    · simp [isMajor] at h2
    · by_contra hne
      exact not_le_of_lt (hl.2.2.2 k (hv _ h4) (fun e => hne (by rw [e]))) (h8 _ hl.2.1 rfl)
  rw [eM] at h3
  rw [em] at h4
  refine ⟨by rw [hall, mem_sortDesc]; exact h3, by rw [hall, mem_sortDesc]; exact h4, fun p hp => ?_⟩
  rw [hall, mem_sortDesc] at hp
  exact h6 p hp

/-- detection without the mode heuristic, the minor bonus, the ensemble and the scales: the default -/
structure PlainKey (c : Config) : Prop where
  mode : c.enableMode = false
  bonus : c.enableMinorBonus = false
  ensemble : c.enableEnsemble = false
  multi : c.enableMultiScale = false

theorem detect_plain {L : Lib} {c : Config} (hp : PlainKey c) (cs : List (List F32)) (w : Option (List F32)) :
    detect L c cs w = detectKey L.ord cs (templates c) w := by
  unfold detect detectWith
  rw [hp.mode, hp.bonus]
  rfl

/-- **C99 violated** (detector, short tracks).  Where no segments vote (default settings: fewer than 1024 chroma frames),
the confidence is exactly 0 on any frames that sound at all, however clear the key. -/
theorem C99_violated_short (L : Lib) (hord : ∀ l, (L.ord l).Perm l) (c : Config) (hp : PlainKey c) (cs : List (List F32))
    (w : Option (List F32)) (hc : ChromaInput cs w) (hs : Sounding cs w)
    (hn : c.enableSegments = false ∨ cs.length < c.segLen) (r : Res) (h : keyCall L c cs w = .ok (some r)) : r.conf = 0 := by
  unfold keyCall at h
  have h1 : multiScaleOn c cs.length = false := by unfold multiScaleOn; simp [hp.multi]
  have h2 : segOn c cs.length = false := by
    unfold segOn
    rcases hn with e | e
    · simp [e]
    · have : ¬ Nat.max c.segLen 1 ≤ cs.length := by
        have : c.segLen ≤ Nat.max c.segLen 1 := Nat.le_max_left ..
        omega
      simp [this]
  rw [if_neg (by simp [hp.ensemble]), if_neg (by simp [h1]), if_neg (by simp [h2]), detect_plain hp] at h
  rcases hd : detectKey L.ord cs (templates c) w with e | r'
  · rw [hd] at h
    rcases e with k | _ | _ <;> cases h
  · rw [hd] at h
    cases h
    exact detect_zero hord hc (full_templates c) hs hd

theorem scoreOf_mem {l : List (Key × F32)} (hn : (l.map Prod.fst).Nodup) {k : Key} {s : F32} (h : (k, s) ∈ l) : scoreOf l k = s := by
  unfold scoreOf
  rcases hf : l.find? (fun p => decide (p.1 = k)) with _ | b
  · exact absurd (List.find?_eq_none.1 hf _ h) (by simp)
  · have hb := List.mem_of_find?_eq_some hf
    have hk : b.1 = k := by simpa using List.find?_some hf
    have : b = (k, s) := List.inj_on_of_nodup_map hn hb h hk
    rw [hf, this]; rfl

theorem clamp_zero_div {v : F32} (hv : v.isFinite = true) (h0 : 0 < v) : F32.clamp ((v - v) / v) 0 1 = 0 := by
  obtain ⟨q, hq, rfl⟩ := isFinite_iff.1 hv
  rw [zero_def, fin_lt_fin] at h0
  have e : fin q hq - fin q hq = 0 := by
    rw [sub_fin, sub_self, rnd_zero]
  rw [e, zero_def, div_fin h0.ne', zero_div, rnd_zero]
  decide +kernel

theorem votes_sat {a x : F32} (a0 : 0 ≤ a) (a1 : a ≤ rnd (pow2 116)) (x0 : 0 ≤ x) (x1 : x ≤ TOP) :
    0 ≤ a + x ∧ a + x ≤ rnd (pow2 116) := by
  have hs := F32.add_nonneg a0 x0
  exact ⟨hs, F32.le_trans (F32.add_le_add a1 x1 (ne_nan_right hs) (by decide +kernel)) (by decide +kernel)⟩

theorem votes_mono (l : List Heard) (f g : Heard → F32) (h : ∀ x ∈ l, 0 ≤ f x ∧ f x ≤ g x ∧ g x ≤ TOP) : ∀ a b : F32,
    0 ≤ a → a ≤ b → b ≤ rnd (pow2 116) →
    0 ≤ (l.map f).foldl (· + ·) a ∧ (l.map f).foldl (· + ·) a ≤ (l.map g).foldl (· + ·) b ∧
      (l.map g).foldl (· + ·) b ≤ rnd (pow2 116) := by
  induction l with
  | nil => exact fun a b ha hab hb => ⟨ha, hab, hb⟩
  | cons x l ih =>
    intro a b ha hab hb
    obtain ⟨f0, fg, g1⟩ := h x (List.mem_cons_self ..)
    have hbx := votes_sat (F32.le_trans ha hab) hb (F32.le_trans f0 fg) g1
    have hax := votes_sat ha (F32.le_trans hab hb) f0 (F32.le_trans fg g1)
    exact ih (fun y hy => h y (List.mem_cons_of_mem _ hy)) _ _ hax.1
      (F32.add_le_add hab fg (ne_nan_right hax.1) (ne_nan_right hbx.1)) hbx.2

/-- **C99 violated** (detector, long tracks).  Where segments vote and the same major and the same minor key lead in every
window (the steadier the key, the likelier), the confidence is exactly 0 again. -/
theorem C99_violated_steady (L : Lib) (hord : ∀ l, (L.ord l).Perm l) (c : Config) (hp : PlainKey c) (cs : List (List F32))
    (w : Option (List F32)) (hc : ChromaInput cs w) (hs : Sounding cs w) (hv : Voting c cs.length) (i j : ℕ)
    (hl : ∀ x ∈ voteWindows c cs.length, Sounding ((cs.drop x.start).take x.len) (x.weights w) ∧
      Leads ((cs.drop x.start).take x.len) (x.weights w) (templates c) i j) (r : Res)
    (h : keyCall L c cs w = .ok (some r)) : r.conf = 0 := by
  obtain ⟨hs', hwin, hheard, h1, h2⟩ := C91_vote L c cs w hv r h
  by_cases hce : hs'.filter (fun x => decide (F32.clamp c.segClarity 0 1 ≤ x.clarity)) = []
  · have := h1 hce
    rw [detect_plain hp] at this
    exact detect_zero hord hc (full_templates c) hs this
  obtain ⟨-, -, hkv, hbest, k2, hk2v, hk2, hsec, hconf⟩ := h2 hce
  have hmem : ∀ x ∈ hs'.filter (fun x => decide (F32.clamp c.segClarity 0 1 ≤ x.clarity)), x ∈ hs' :=
    fun x hx => List.mem_of_mem_filter hx
  generalize hs'.filter (fun x => decide (F32.clamp c.segClarity 0 1 ≤ x.clarity)) = clear at h1 h2 hce hbest hsec hconf hmem
  -- what each clear window says
  have hwd : ∀ x ∈ clear, (0 ≤ x.clarity ∧ x.clarity ≤ 1) ∧ scoreOf x.det.all (.major i) = topScore 1 ∧
      scoreOf x.det.all (.minor j) = topScore 1 ∧
      ∀ k, ValidKey k → 0 ≤ scoreOf x.det.all k ∧ scoreOf x.det.all k ≤ topScore 1 := by
    intro x hx
    have hxw : x.window ∈ voteWindows c cs.length := by rw [← hwin]; exact List.mem_map_of_mem (hmem x hx)
    obtain ⟨hd, hq⟩ := hheard x (hmem x hx)
    obtain ⟨sx, lx⟩ := hl _ hxw
    rw [detect_plain hp] at hd
    have hin : ChromaInput ((cs.drop x.window.start).take x.window.len) (x.window.weights w) := by
      unfold voteWindows at hxw
      obtain ⟨st, hst, e⟩ := List.mem_map.1 hxw
      simp only [List.mem_filter, List.mem_range, Bool.and_eq_true, decide_eq_true_eq] at hst
      rw [← e]
      have := window_input hc (s := st) (len := c.segLen) (by have := hv.len; omega) hst.2.2
      rw [segWeights_eq w st c.segLen 1] at this
      exact this
    obtain ⟨m1, m2, m3⟩ := detect_leaders hin (full_templates c) sx lx hd
    obtain ⟨r', er', hD⟩ := detectKey_detected (ord := L.ord) hord hin (unit_of_full (full_templates c))
    rw [hd] at er'
    cases er'
    have hnd : (x.det.all.map Prod.fst).Nodup := hD.keys.nodup_iff.2 allKeys_nodup
    obtain ⟨q, eq, q0, q1⟩ := reported_clarity hD.reported
    rw [hq] at eq
    cases eq
    refine ⟨⟨q0, q1⟩, scoreOf_mem hnd m1, scoreOf_mem hnd m2, fun k hk => ?_⟩
    have : k ∈ x.det.all.map Prod.fst := hD.keys.mem_iff.2 ((validKey_iff k).1 hk)
    obtain ⟨p, hpm, rfl⟩ := List.mem_map.1 this
    rw [scoreOf_mem hnd (k := p.1) (s := p.2) hpm]
    exact ⟨(hD.range p hpm).1, m3 p hpm⟩
  have htie : votesFor clear (.major i) = votesFor clear (.minor j) := by
    unfold votesFor
    congr 1
    refine List.map_congr_left (fun x hx => ?_)
    rw [(hwd x hx).2.1, (hwd x hx).2.2.1]
  have hle : ∀ k, ValidKey k → 0 ≤ votesFor clear k ∧ votesFor clear k ≤ votesFor clear (.major i) ∧
      votesFor clear (.major i) ≤ rnd (pow2 116) := by
    intro k hk
    unfold votesFor F32.sum
    refine votes_mono clear _ _ (fun x hx => ?_) 0 0 (by decide +kernel) (by decide +kernel) (by decide +kernel)
    obtain ⟨⟨q0, q1⟩, e1, -, hr⟩ := hwd x hx
    obtain ⟨k0, k1⟩ := hr k hk
    have ht : topScore 1 ≤ TOP := by decide +kernel
    have t0 : (0 : F32) ≤ topScore 1 := by decide +kernel
    have s1 := scale_down q0 q1 k0 (F32.le_trans k1 ht)
    have s2 := scale_down q0 q1 t0 ht
    rw [e1]
    refine ⟨by rw [F32.mul_comm]; exact s1.1, ?_, by rw [F32.mul_comm]; exact s2.2⟩
    rw [F32.mul_comm, F32.mul_comm (topScore 1)]
    exact F32.mul_le_mul_of_nonneg_left k1 q0 (ne_nan_right s1.1) (ne_nan_right s2.1)
  obtain ⟨vi, vj⟩ : ValidKey (.major i) ∧ ValidKey (.minor j) := by
    obtain ⟨x, hx⟩ := List.exists_mem_of_ne_nil _ hce
    have := (hl _ (by rw [← hwin]; exact List.mem_map_of_mem (hmem x hx))).2
    exact ⟨this.1, this.2.1⟩
  have hV : votesFor clear r.key = votesFor clear (.major i) := F32.le_antisymm (hle _ hkv).2.1 (hbest _ vi)
  have hV2 : votesFor clear k2 = votesFor clear (.major i) := by
    refine F32.le_antisymm (hle _ hk2v).2.1 ?_
    by_cases hk : r.key = .major i
    · rw [htie]
      exact hsec _ vj (by rw [hk]; simp)
    · exact hsec _ vi (fun e => hk e.symm)
  rw [hconf, hV, hV2]
  split_ifs with hpos
  · exact clamp_zero_div (isFinite_of_between (by decide +kernel) (by decide +kernel) (hle _ vi).1 (hle _ vi).2.2) hpos
  · rfl

/-! ### The whole analysis -/

/-- the chroma frames and frame weights that reach the key detector: the stages of lib.rs lines 961-1287 one after the other -/
def detectorInput (L : Lib) (c : Config) (x : List F32) (spec : List (List F32)) (sr : ℕ) (bts : List F32) :
    R (List (List F32) × Option (List F32)) := do
  let ks0 ← keySpec L c x spec
  let ks ← specForKey L c sr ks0
  let lg ← logFreq L c sr ks
  let tuning ← tuningOffset L c sr ks lg.isSome
  let p ← chromaCall L c sr ks lg tuning bts
  let cs1 ← postChroma L c p.1
  let q ← edgeTrim c cs1 p.2
  pure (q.1, frameWeights L.M c q.1 q.2)

theorem keyPart_input {L : Lib} {c : Config} {x : List F32} {spec : List (List F32)} {sr : ℕ} {bts : List F32}
    {cs : List (List F32)} {w : Option (List F32)} {k : Key × F32 × F32} (hf : c.frame ≤ x.length)
    (hi : detectorInput L c x spec sr bts = .ok (cs, w)) (hk : keyPart L c x spec sr bts = .ok k) :
    (keyCall L c cs w = .ok none ∧ k = (.major 0, 0, 0)) ∨
      ∃ r, keyCall L c cs w = .ok (some r) ∧ k.1 = r.key ∧ k.2.1 = r.conf := by
  unfold detectorInput at hi
  obtain ⟨ks0, a1, hi⟩ := R.bind_eq_ok.1 hi
  obtain ⟨ks, a2, hi⟩ := R.bind_eq_ok.1 hi
  obtain ⟨lg, a3, hi⟩ := R.bind_eq_ok.1 hi
  obtain ⟨tu, a4, hi⟩ := R.bind_eq_ok.1 hi
  obtain ⟨p, a5, hi⟩ := R.bind_eq_ok.1 hi
  obtain ⟨cs1, a6, hi⟩ := R.bind_eq_ok.1 hi
  obtain ⟨q, a7, hi⟩ := R.bind_eq_ok.1 hi
  rw [R.pure_eq_ok, Except.ok.injEq, Prod.mk.injEq] at hi
  obtain ⟨rfl, rfl⟩ := hi
  unfold keyPart at hk
  rw [if_pos hf, a1, R.ok_bind, a2, R.ok_bind, a3, R.ok_bind, a4, R.ok_bind, a5] at hk
  have hk' : keyOf L c p.1 p.2 = .ok k := hk
  unfold keyOf at hk'
  rw [a6, R.ok_bind, a7, R.ok_bind] at hk'
  obtain ⟨o, a8, hk'⟩ := R.bind_eq_ok.1 hk'
  rcases o with _ | r
  · left
    exact ⟨a8, by cases hk'; rfl⟩
  · right
    dsimp only at hk'
    obtain ⟨qq, a9, hk'⟩ := R.bind_eq_ok.1 hk'
    cases hk'
    exact ⟨r, a8, rfl, rfl⟩

/-- **C99 violated.**  Whatever `analyze_audio` returns for a track whose key branch delivers sounding chroma frames: the
reported key confidence is exactly 0 when the track has fewer chroma frames than a segment (default: 1024), and also when
it has more and the same major and the same minor key lead in every segment. -/
theorem C99_violated (L : Lib) (hord : ∀ l, (L.ord l).Perm l) (c : Config) (hp : PlainKey c) (s y x : List F32)
    (spec cs : List (List F32)) (w : Option (List F32)) (sr : ℕ) (r : Result) (h : analyze L c s sr = .ok r)
    (hy : normalized L c s sr = .ok y) (hx : trimmed L c y sr = .ok x)
    (hspec : Chroma.computeStft L.M L.sfft x c.frame c.hop = .ok spec)
    (hi : detectorInput L c x spec sr r.grid.beats = .ok (cs, w)) (hc : ChromaInput cs w) (hs : Sounding cs w)
    (hcase : (c.enableSegments = false ∨ cs.length < c.segLen) ∨
      (Voting c cs.length ∧ ∃ i j, ∀ v ∈ voteWindows c cs.length, Sounding ((cs.drop v.start).take v.len) (v.weights w) ∧
        Leads ((cs.drop v.start).take v.len) (v.weights w) (templates c) i j)) :
    r.keyConf = 0 := by
  obtain ⟨-, -, y', x', hy', hx', -, -, ht⟩ := analyze_inv h
  rw [hy] at hy'
  cases hy'
  rw [hx] at hx'
  cases hx'
  obtain ⟨energy, spec', ons, leg, t, g, k, -, h2, -, -, -, -, hk, rfl⟩ := analyzeTrimmed_inv ht
  rw [hspec] at h2
  cases h2
  show k.2.1 = 0
  have hi' : detectorInput L c x spec sr g.1.beats = .ok (cs, w) := hi
  by_cases hf : c.frame ≤ x.length
  · rcases keyPart_input hf hi' hk with ⟨-, rfl⟩ | ⟨res, hres, -, e⟩
    · rfl
    · rw [e]
      rcases hcase with hn | ⟨hv, i, j, hl⟩
      · exact C99_violated_short L hord c hp cs w hc hs hn res hres
      · exact C99_violated_steady L hord c hp cs w hc hs hv i j hl res hres
  · unfold keyPart at hk
    rw [if_neg hf] at hk
    cases hk
    rfl

/-- **C99 (partial).** What the confidence does say: it is the margin of the reported key over the best other key, relative
to the score of the reported key (0 if that is not positive).  Missing: that the margin says how clear the key is; the
scores are scaled per mode before they are compared, so it is 0 as soon as both modes are heard (`C99_violated`). -/
theorem C99_margin_partial (L : Lib) (hord : ∀ l, (L.ord l).Perm l) (c : Config) (hp : PlainKey c) (cs : List (List F32))
    (w : Option (List F32)) (hn : c.enableSegments = false ∨ cs.length < c.segLen) (r : Res)
    (h : keyCall L c cs w = .ok (some r)) :
    ∃ s o, (r.key, s) ∈ r.all ∧ (∀ p ∈ r.all, p.2 ≤ s) ∧ (∃ k, k ≠ r.key ∧ (k, o) ∈ r.all) ∧
      (∀ p ∈ r.all, p.1 ≠ r.key → p.2 ≤ o) ∧ r.conf = if 0 < s then F32.clamp ((s - o) / s) 0 1 else 0 := by
  unfold keyCall at h
  have h1 : multiScaleOn c cs.length = false := by unfold multiScaleOn; simp [hp.multi]
  have h2 : segOn c cs.length = false := by
    unfold segOn
    rcases hn with e | e
    · simp [e]
    · have : ¬ Nat.max c.segLen 1 ≤ cs.length := by
        have : c.segLen ≤ Nat.max c.segLen 1 := Nat.le_max_left ..
        omega
      simp [this]
  rw [if_neg (by simp [hp.ensemble]), if_neg (by simp [h1]), if_neg (by simp [h2]), detect_plain hp] at h
  rcases hd : detectKey L.ord cs (templates c) w with e | r'
  · rw [hd] at h
    rcases e with k | _ | _ <;> cases h
  · rw [hd] at h
    cases h
    obtain ⟨s, o, -, a, b, d, e, f⟩ := detect_spec hord hd
    exact ⟨s, o, a, b, d, e, f⟩

/-! ### Instances -/

/-- settings of the small runs: frames of eight samples every four samples, segments and the rest as by default -/
def smallConfig : Config := { frame := 8, hop := 4, enableKeyStft := false, forceLegacy := true }

-- a run of the whole analysis that meets the hypotheses of `C99_violated`: twelve samples of noise
set_option maxRecDepth 4000 in
example : ∃ y x spec cs w r, analyze (seedLib id) smallConfig (noise 8 12) 3520 = .ok r ∧
    normalized (seedLib id) smallConfig (noise 8 12) 3520 = .ok y ∧ trimmed (seedLib id) smallConfig y 3520 = .ok x ∧
    Chroma.computeStft seedLibm dft8 x 8 4 = .ok spec ∧ detectorInput (seedLib id) smallConfig x spec 3520 r.grid.beats = .ok (cs, w) ∧
    ChromaInput cs w ∧ Sounding cs w ∧ cs.length < smallConfig.segLen ∧ PlainKey smallConfig := by
  have h : (match normalized (seedLib id) smallConfig (noise 8 12) 3520 with
    | .ok y => (match trimmed (seedLib id) smallConfig y 3520 with
      | .ok x => (match Chroma.computeStft seedLibm dft8 x 8 4 with
        | .ok spec => (match analyze (seedLib id) smallConfig (noise 8 12) 3520 with
          | .ok r => (match detectorInput (seedLib id) smallConfig x spec 3520 r.grid.beats with
            | .ok (cs, none) => decide (cs ≠ []) && decide (∀ c ∈ cs, c.length = 12 ∧ ∀ x ∈ c, 0 ≤ x ∧ x ≤ 1) &&
                decide (∃ f ∈ cs, ∃ x ∈ f, 0.01 ≤ x) && decide (cs.length < 1024)
            | _ => false)
          | _ => false)
        | _ => false)
      | _ => false)
    | _ => false) = true := by decide +kernel
  rcases e1 : normalized (seedLib id) smallConfig (noise 8 12) 3520 with _ | y
  · rw [e1] at h; cases h
  rw [e1] at h
  dsimp only at h
  rcases e2 : trimmed (seedLib id) smallConfig y 3520 with _ | x
  · rw [e2] at h; cases h
  rw [e2] at h
  dsimp only at h
  rcases e3 : Chroma.computeStft seedLibm dft8 x 8 4 with _ | spec
  · rw [e3] at h; cases h
  rw [e3] at h
  dsimp only at h
  rcases e4 : analyze (seedLib id) smallConfig (noise 8 12) 3520 with _ | r
  · rw [e4] at h; cases h
  rw [e4] at h
  dsimp only at h
  rcases e5 : detectorInput (seedLib id) smallConfig x spec 3520 r.grid.beats with _ | ⟨cs, _ | w⟩
  · rw [e5] at h; cases h
  · rw [e5] at h
    simp only [Bool.and_eq_true, decide_eq_true_eq] at h
    obtain ⟨⟨⟨h1, h2⟩, f, h3, h4⟩, h5⟩ := h
    exact ⟨y, x, spec, cs, none, r, rfl, rfl, e2, e3, e5, ⟨h1, h2, by simp, by simp⟩, ⟨f, h4, h3⟩, h5, rfl, rfl, rfl, rfl⟩
  · rw [e5] at h; cases h

-- a track of 120 frames in C major, the clearest there is: one window, led by C major and A minor, and confidence 0
example : ∃ r, keyCall (seedLib id) voteConfig longC (some longW) = .ok (some r) ∧ r.conf = 0 := by
  have hlead : Leads longC (some longW) krumhanslKessler 0 9 := by
    refine ⟨by decide, by decide, ?_, ?_⟩
    · exact fun k hk hne => (by decide +kernel : ∀ k < 12, k ≠ 0 →
        matchScore longC krumhanslKessler (some longW) (.major k) < matchScore longC krumhanslKessler (some longW) (.major 0)) k hk hne
    · exact fun k hk hne => (by decide +kernel : ∀ k < 12, k ≠ 9 →
        matchScore longC krumhanslKessler (some longW) (.minor k) < matchScore longC krumhanslKessler (some longW) (.minor 9)) k hk hne
  have hsound : Sounding longC (some longW) := by
    refine ⟨krumhanslKessler.getMajor 0, by decide +kernel, 1, ?_, by decide +kernel⟩
    unfold longC longW
    rw [List.replicate_succ, List.zip_cons_cons]
    exact List.mem_cons_self ..
  have hin : ChromaInput longC (some longW) := by
    refine ⟨by unfold longC; simp, ?_, ?_, ?_⟩
    · intro f hf
      rw [List.eq_of_mem_replicate hf]
      decide +kernel
    · rintro w ⟨⟩
      rw [longW_length, longC_length]
    · rintro w ⟨⟩ x hx
      rcases List.mem_cons.1 hx with rfl | hx
      · decide +kernel
      · rw [List.eq_of_mem_replicate hx]; decide +kernel
  have hex : (match keyCall (seedLib id) voteConfig longC (some longW) with
      | .ok (some _) => true
      | _ => false) = true := by decide +kernel
  rcases h : keyCall (seedLib id) voteConfig longC (some longW) with e | _ | r
  · rw [h] at hex; cases hex
  · rw [h] at hex; cases hex
  refine ⟨r, rfl, C99_violated_steady (seedLib id) (fun l => List.Perm.refl _) voteConfig ⟨rfl, rfl, rfl, rfl⟩ longC (some longW) hin hsound
    longC_voting 0 9 ?_ r h⟩
  intro x hx
  unfold voteWindows at hx
  obtain ⟨st, hst, rfl⟩ := List.mem_map.1 hx
  simp only [List.mem_filter, List.mem_range, Bool.and_eq_true, decide_eq_true_eq, longC_length] at hst
  have h0 : st = 0 := by
    have : st + 120 ≤ 120 := hst.2.2
    omega
  subst h0
  have e1 : (longC.drop 0).take 120 = longC := by rw [List.drop_zero, List.take_of_length_le (by rw [longC_length])]
  have e2 : (⟨0, 120, 1⟩ : Window).weights (some longW) = some longW := by
    simp only [Window.weights, longW_length, List.drop_zero]
    rw [if_pos (by decide), List.take_of_length_le (by rw [longW_length])]
  show Sounding ((longC.drop 0).take 120) ((⟨0, 120, 1⟩ : Window).weights (some longW)) ∧
    Leads ((longC.drop 0).take 120) ((⟨0, 120, 1⟩ : Window).weights (some longW)) krumhanslKessler 0 9
  rw [e1, e2]
  exact ⟨hsound, hlead⟩

end Verif.Props
