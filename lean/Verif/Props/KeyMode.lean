import Verif.Props.KeyDetect

/-! Property theorems for claim C42: the mode heuristic. -/

namespace Verif.Props

open Verif Verif.Keys Verif.KeyDet F32

/-- the two keys have the same tonic -/
def SameTonic (a b : Key) : Prop := ∃ i, (a = .major i ∨ a = .minor i) ∧ (b = .major i ∨ b = .minor i)

theorem sameTonic_refl (a : Key) : SameTonic a a := by
  rcases a with i | i
  · exact ⟨i, Or.inl rfl, Or.inl rfl⟩
  · exact ⟨i, Or.inr rfl, Or.inr rfl⟩

theorem minorBonus_fst (b : Bool) (w ws : F32) (avg : List F32) (l : List (Key × F32)) :
    (minorBonus b w ws avg l).map Prod.fst = l.map Prod.fst := by
  unfold minorBonus; dsimp only
  split_ifs
  · rw [List.map_map]
    apply List.map_congr_left
    intro p _
    rcases h : p.1 with i | i <;> simp [Function.comp, h]
  · rfl

theorem modeScore_mem {l : List (Key × F32)} {k : Key} (hk : k ∈ l.map Prod.fst) : (k, modeScore l k) ∈ l := by
  unfold modeScore
  obtain ⟨p, hp, e⟩ := List.mem_map.1 hk
  rcases hf : l.reverse.find? (fun p => decide (p.1 = k)) with _ | q
  · have := List.find?_eq_none.1 hf p (by simpa using hp)
    simp [e] at this
  · have h1 := List.mem_of_find?_eq_some hf
    have h2 := List.find?_some hf
    have h2 : q.1 = k := by simpa using h2
    have : q = (k, q.2) := by rw [← h2]
    rw [hf]
    show (k, q.2) ∈ l
    rw [← this]; simpa using h1

theorem chooseMode_cases (flip : F32) (pref : Bool × Bool) (scores : List (Key × F32)) (best : Key) :
    chooseMode flip pref scores best = best ∨
    (SameTonic (chooseMode flip pref scores best) best ∧ 0 < flip ∧ 0 < modeScore scores best ∧
      isMajor (chooseMode flip pref scores best) ≠ isMajor best ∧
      modeScore scores best * flip ≤ modeScore scores (chooseMode flip pref scores best)) := by
  unfold chooseMode
  split_ifs with h
  · rcases best with t | t
    · dsimp only
      split_ifs with hc
      · right
        simp only [Bool.and_eq_true, decide_eq_true_eq] at hc
        exact ⟨⟨t, Or.inr rfl, Or.inl rfl⟩, h, hc.1.2, by simp [isMajor], hc.2⟩
      · left; rfl
    · dsimp only
      split_ifs with hc
      · right
        simp only [Bool.and_eq_true, decide_eq_true_eq] at hc
        exact ⟨⟨t, Or.inl rfl, Or.inr rfl⟩, h, hc.1.2, by simp [isMajor], hc.2⟩
      · left; rfl
  · left; rfl

/-- the mode heuristic, unfolded -/
theorem mode_ok {ord : List (Key × F32) → List (Key × F32)} {chroma : List (List F32)} {T : Templates}
    {weights : Option (List F32)} {tm fm : F32} {bonus : Bool} {bw : F32} {r : Res}
    (h : detectKeyMode ord chroma T weights tm fm bonus bw = .ok r) :
    ∃ base, detectKey ord chroma T weights = .ok base ∧ (r = base ∨
      (r.all = sortDesc Prod.snd (minorBonus bonus bw (chromaSum chroma weights).2 (chromaAvg (chromaSum chroma weights).1)
          base.all) ∧
        r.key = chooseMode (F32.clamp fm 0 1) (modePref tm (chromaAvg (chromaSum chroma weights).1)
          (tonic (r.all.getD 0 (.major 0, 0)).1)) r.all (r.all.getD 0 (.major 0, 0)).1 ∧
        r.conf = margin (modeScore r.all r.key)
          ((r.all.filter (fun p => decide (p.1 ≠ r.key))).foldl (fun m p => F32.max m p.2) 0) ∧
        r.top = topWith r.all r.key (modeScore r.all r.key))) := by
  unfold detectKeyMode at h
  rcases hb : detectKey ord chroma T weights with e | base
  · rw [hb] at h; simp [bind, Except.bind] at h
  · rw [hb] at h
    refine ⟨base, rfl, ?_⟩
    simp only [bind, Except.bind] at h
    split_ifs at h
    · left; simpa [pure, Except.pure] using h.symm
    · left; simpa [pure, Except.pure] using h.symm
    · right
      simp only [pure, Except.pure, Except.ok.injEq] at h
      subst h
      exact ⟨rfl, rfl, rfl, rfl⟩

theorem mode_keys {ord : List (Key × F32) → List (Key × F32)} {chroma : List (List F32)} {T : Templates}
    {weights : Option (List F32)} {tm fm : F32} {bonus : Bool} {bw : F32} {r : Res}
    (h : detectKeyMode ord chroma T weights tm fm bonus bw = .ok r) : (r.all.map Prod.fst).Perm allKeys := by
  obtain ⟨base, hb, e | ⟨e, _⟩⟩ := mode_ok h
  · rw [e]; exact (detectKey_all hb).1
  · rw [e]
    refine ((sortDesc_perm _).map _).trans ?_
    rw [minorBonus_fst]; exact (detectKey_all hb).1

theorem head_mem {l : List (Key × F32)} (h : (l.map Prod.fst).Perm allKeys) : l.getD 0 (.major 0, 0) ∈ l := by
  have hl : l.length = 24 := by
    have := h.length_eq; rw [List.length_map] at this; exact this.trans (by decide +kernel)
  match l, hl with
  | a :: l, _ => simp

/-- **C42** (the key; partial): the heuristic either returns the base detection unchanged, or it ranks all 24 keys and
reports the tonic of the first-ranked key; the mode differs from the first-ranked key's only if flipping is enabled and the
opposite-mode score is at least the configured fraction (clamped to [0,1]) of the first-ranked, positive score.  The
reported key is among the three `top_keys`.  Missing: the base detection may report another key than the first-ranked one,
see `C42_violated`. -/
theorem C42_flip_partial (ord : List (Key × F32) → List (Key × F32)) (hord : ∀ l, (ord l).Perm l) (chroma : List (List F32))
    (T : Templates) (weights : Option (List F32)) (tm fm : F32) (bonus : Bool) (bw : F32) (r : Res)
    (h : detectKeyMode ord chroma T weights tm fm bonus bw = .ok r) :
    Complete r.all ∧ ValidKey r.key ∧ r.top.length = 3 ∧ (∃ s, (r.key, s) ∈ r.all ∧ (r.key, s) ∈ r.top) ∧
    (detectKey ord chroma T weights = .ok r ∨
      ∃ p0 s, r.all.head? = some p0 ∧ (r.key, s) ∈ r.all ∧ SameTonic r.key p0.1 ∧
        (¬ SameMode r.key p0.1 → 0 < F32.clamp fm 0 1 ∧ 0 < p0.2 ∧ p0.2 * F32.clamp fm 0 1 ≤ s)) := by
  have hk := mode_keys h
  have hnd : (r.all.map Prod.fst).Nodup := hk.nodup_iff.2 allKeys_nodup
  have hlen : r.all.length = 24 := by
    have := hk.length_eq; rw [List.length_map] at this; exact this.trans (by decide +kernel)
  refine ⟨complete_of_perm hk, ?_⟩
  obtain ⟨base, hb, e | ⟨e1, e2, e3, e4⟩⟩ := mode_ok h
  · subst e
    obtain ⟨s, o, m0, m1, _⟩ := detect_spec hord hb
    refine ⟨(validKey_iff _).2 (hk.mem_iff.1 (List.mem_map_of_mem m1)), ?_, ⟨s, m1, m0⟩, Or.inl hb⟩
    rw [(detectKey_ok hb).2.2.2.2, List.length_take]; omega
  · set p0 := r.all.getD 0 (.major 0, 0) with hp0
    have hm0 : p0 ∈ r.all := head_mem hk
    have hv0 : p0.1 ∈ allKeys := hk.mem_iff.1 (List.mem_map_of_mem hm0)
    have hvalid : r.key ∈ allKeys := by
      rw [e2]
      rcases chooseMode_cases (F32.clamp fm 0 1) (modePref tm (chromaAvg (chromaSum chroma weights).1) (tonic p0.1)) r.all p0.1 with c | c
      · rw [c]; exact hv0
      · obtain ⟨⟨i, c1, c2⟩, _⟩ := c
        have := allKeys_tonic hv0
        apply mem_allKeys
        rcases c1 with c1 | c1 <;> rcases c2 with c2 | c2 <;> rw [c1] <;> rw [c2] at this <;> exact this
    have hmem : (r.key, modeScore r.all r.key) ∈ r.all := modeScore_mem (hk.mem_iff.2 hvalid)
    refine ⟨(validKey_iff _).2 hvalid, ?_, ⟨_, hmem, ?_⟩, Or.inr ⟨p0, modeScore r.all r.key, ?_, hmem, ?_⟩⟩
    · rw [e4]; unfold topWith; dsimp only
      split_ifs
      · rw [List.length_take]; omega
      · rw [List.length_append, List.length_dropLast, List.length_take]; simp; omega
    · rw [e4]; unfold topWith; dsimp only
      split_ifs with hc
      · rw [List.any_eq_true] at hc
        obtain ⟨q, hq, hqk⟩ := hc
        have hqk : q.1 = r.key := by simpa using hqk
        have hq' := List.mem_of_mem_take hq
        have := List.inj_on_of_nodup_map hnd hq' hmem hqk
        rw [← this]; exact hq
      · simp
    · rw [hp0]
      match hr : r.all, hlen with
      | a :: l, _ => simp
    · rw [e2]
      have hs0 : (p0.1, modeScore r.all p0.1) = p0 :=
        List.inj_on_of_nodup_map hnd (modeScore_mem (hk.mem_iff.2 hv0)) hm0 rfl
      have hs0' : modeScore r.all p0.1 = p0.2 := by
        have := congrArg Prod.snd hs0; exact this
      rcases chooseMode_cases (F32.clamp fm 0 1) (modePref tm (chromaAvg (chromaSum chroma weights).1) (tonic p0.1)) r.all p0.1 with c | c
      · rw [c]
        exact ⟨sameTonic_refl _, fun hc => absurd ((sameMode_iff _ _).2 rfl) hc⟩
      · obtain ⟨c1, c2, c3, _, c5⟩ := c
        rw [hs0'] at c3 c5
        exact ⟨c1, fun _ => ⟨c2, c3, c5⟩⟩

/-- non-vacuity: C and G with more E♭ than E; the heuristic flips the first-ranked C major to C minor -/
example : (match detectKeyMode id [[1, 0, 0, 0.5, 0.3, 0, 0, 1, 0, 0, 0, 0]] krumhanslKessler none 0 0.5 false 0 with
    | .ok r => decide (r.key = .minor 0) && decide (r.all.head?.map Prod.fst = some (.major 0))
    | .error _ => false) = true := by decide +kernel

/-- **C42 violated** (tonic): on the C major profile the base detection reports A minor under one hash seed, and the
heuristic reports C major. -/
theorem C42_violated :
    (match detectKey id [krumhanslKessler.getMajor 0] krumhanslKessler none,
        detectKeyMode id [krumhanslKessler.getMajor 0] krumhanslKessler none 0.02 0.9 false 0 with
      | .ok b, .ok r => decide (b.key = .minor 9) && decide (r.key = .major 0) | _, _ => false) = true := by decide +kernel

/-- **C42** (tonic; partial: without the harmonic-minor bonus, and when the base detection reports its first-ranked key):
the heuristic keeps the tonic of the base detection. -/
theorem C42_tonic_partial (ord : List (Key × F32) → List (Key × F32)) (chroma : List (List F32))
    (T : Templates) (weights : Option (List F32)) (tm fm : F32) (bw : F32) (base r : Res)
    (hb : detectKey ord chroma T weights = .ok base) (hfirst : base.all.head?.map Prod.fst = some base.key)
    (h : detectKeyMode ord chroma T weights tm fm false bw = .ok r) :
    r.all = base.all ∧ SameTonic r.key base.key := by
  obtain ⟨base', hb', e | ⟨e1, e2, e3, e4⟩⟩ := mode_ok h
  · rw [hb] at hb'; cases hb'; subst e; exact ⟨rfl, sameTonic_refl _⟩
  · rw [hb] at hb'; cases hb'
    have hall : r.all = base.all := by
      rw [e1]
      have : minorBonus false bw (chromaSum chroma weights).2 (chromaAvg (chromaSum chroma weights).1) base.all = base.all := by
        unfold minorBonus; simp
      rw [this]
      unfold sortDesc
      apply rsort_eq_self
      refine (detectKey_all hb).2.2.imp (fun {a b} hab => ?_)
      simpa using not_lt_of_le hab
    refine ⟨hall, ?_⟩
    rw [hall] at e2
    have hf : (base.all.getD 0 (.major 0, 0)).1 = base.key := by
      rcases hl : base.all with _ | ⟨a, l⟩
      · rw [hl] at hfirst; simp at hfirst
      · rw [hl] at hfirst; simpa using hfirst
    rw [hf] at e2
    rw [e2]
    rcases chooseMode_cases (F32.clamp fm 0 1) (modePref tm (chromaAvg (chromaSum chroma weights).1) (tonic base.key)) base.all base.key with c | c
    · rw [c]; exact sameTonic_refl _
    · exact c.1

/-- non-vacuity: the notes of a C major chord -/
example : (match detectKey id [[1, 0, 0, 0, 1, 0, 0, 1, 0, 0, 0, 0]] krumhanslKessler none with
    | .ok b => decide (b.all.head?.map Prod.fst = some b.key) | _ => false) = true := by decide +kernel

/-- **C42** (confidence; partial: the reported score is not +∞): the confidence is in [0,1]. -/
theorem C42_confidence_partial (ord : List (Key × F32) → List (Key × F32)) (hord : ∀ l, (ord l).Perm l)
    (chroma : List (List F32)) (T : Templates) (weights : Option (List F32)) (tm fm : F32) (bonus : Bool) (bw : F32) (r : Res)
    (h : detectKeyMode ord chroma T weights tm fm bonus bw = .ok r) (hfin : ∀ p ∈ r.all, p.2 ≠ inf false) :
    0 ≤ r.conf ∧ r.conf ≤ 1 := by
  have hk := mode_keys h
  obtain ⟨base, hb, e | ⟨e1, e2, e3, e4⟩⟩ := mode_ok h
  · subst e; exact (C40_confidence ord hord chroma T weights r hb).2 hfin
  · obtain ⟨_, hv, _⟩ := C42_flip_partial ord hord chroma T weights tm fm bonus bw r h
    have hm := modeScore_mem (hk.mem_iff.2 ((validKey_iff _).1 hv))
    rw [e3]
    have hn : ∀ (l : List (Key × F32)) (a : F32), a ≠ nan → l.foldl (fun m p => F32.max m p.2) a ≠ nan := by
      intro l
      induction l with
      | nil => intro a ha; exact ha
      | cons x l ih => intro a ha; exact ih _ (max_ne_nan_left ha)
    rcases margin_unit (hfin _ hm) (o := (r.all.filter (fun p => decide (p.1 ≠ r.key))).foldl (fun m p => F32.max m p.2) 0) with h | h
    · exact h
    · exact absurd h (hn _ _ (by decide +kernel))

/-- **C42 violated** (confidence): an infinite bonus weight makes the confidence NaN. -/
theorem C42_violated_confidence :
    (match detectKeyMode id [[1, 0, 0, 0.9, 0, 0, 0, 1, 0.6, 0, 0, 0.4]] krumhanslKessler none 0.02 0 true (inf false) with
      | .ok r => decide (r.conf = nan) | .error _ => false) = true := by decide +kernel

end Verif.Props
