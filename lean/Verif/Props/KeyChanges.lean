import Verif.Lemmas.KeyCount
import Verif.Props.KeyDetect

/-! Property theorems for claims C45 and C62: key-change timelines. -/

namespace Verif.Props

open Verif Verif.Keys Verif.KeyDet F32

/-- the number of segments of the timeline that are in key `k` -/
def segCount (segs : List (F32 × Key × F32)) (k : Key) : ℕ := (segs.filter (fun s => decide (s.2.1 = k))).length

/-! ### lemmas -/

theorem changeSegments_spec {ord : List (Key × F32) → List (Key × F32)} {chroma : List (List F32)} {T : Templates} {fps : F32}
    {len : ℕ} : ∀ {starts : List ℕ} {segs}, changeSegments ord chroma T fps len starts = .ok segs →
    ∃ l : List (ℕ × Res), (l.map Prod.fst).Sublist starts ∧
      (∀ x ∈ l, detectKey ord ((chroma.drop x.1).take len) T none = .ok x.2) ∧
      segs = l.map (fun x => (F32.ofNat x.1 / fps, x.2.key, x.2.conf)) ∧
      ∀ s ∈ starts, ∀ r, detectKey ord ((chroma.drop s).take len) T none = .ok r → (s, r) ∈ l
  | [], segs, h => by
    cases h
    exact ⟨[], by simp, by simp, by simp, by simp⟩
  | s :: ss, segs, h => by
    rw [changeSegments] at h
    rcases hd : detectKey ord ((chroma.drop s).take len) T none with e | r
    · rw [hd] at h
      cases e with
      | err k =>
        rcases hr : changeSegments ord chroma T fps len ss with e' | rest
        · rw [hr] at h; cases h
        · rw [hr] at h
          cases h
          obtain ⟨l, h1, h2, h3, h4⟩ := changeSegments_spec hr
          refine ⟨l, h1.cons _, h2, by rw [← h3]; rfl, ?_⟩
          intro s' hs' r hr'
          rcases List.mem_cons.1 hs' with rfl | hs'
          · rw [hd] at hr'; cases hr'
          · exact h4 s' hs' r hr'
      | _ => cases h
    · rw [hd] at h
      rcases hr : changeSegments ord chroma T fps len ss with e' | rest
      · rw [hr] at h; cases h
      · rw [hr] at h
        cases h
        obtain ⟨l, h1, h2, h3, h4⟩ := changeSegments_spec hr
        refine ⟨(s, r) :: l, ?_, ?_, ?_, ?_⟩
        · rw [List.map_cons]; exact h1.cons_cons _
        · intro x hx
          rcases List.mem_cons.1 hx with rfl | hx
          · exact hd
          · exact h2 x hx
        · rw [List.map_cons, ← h3]; rfl
        · intro s' hs' r' hr'
          rcases List.mem_cons.1 hs' with rfl | hs'
          · rw [hd] at hr'; cases hr'; simp
          · simp [h4 s' hs' r' hr']

theorem mem_changesOf : ∀ (segs : List (F32 × Key × F32)) (ch : Change), ch ∈ changesOf segs ↔
    ∃ (i : ℕ) (p q : F32 × Key × F32), segs[i]? = some p ∧ segs[i + 1]? = some q ∧ p.2.1 ≠ q.2.1 ∧ (0.2 : F32) < (p.2.2 + q.2.2) / 2 ∧
      ch = ⟨q.1, p.2.1, q.2.1, (p.2.2 + q.2.2) / 2⟩
  | [], ch => by simp [changesOf]
  | [a], ch => by
    simp only [changesOf, List.not_mem_nil, false_iff]
    rintro ⟨i, p, q, _, h, _⟩
    simp at h
  | a :: b :: l, ch => by
    rw [changesOf, List.mem_append, mem_changesOf (b :: l) ch]
    constructor
    · rintro (h | ⟨i, p, q, h1, h2, h3⟩)
      · split_ifs at h with hc
        · exact ⟨0, a, b, rfl, rfl, hc.1, hc.2, by simpa using h⟩
        · simp at h
      · exact ⟨i + 1, p, q, h1, h2, h3⟩
    · rintro ⟨i, p, q, h1, h2, h3, h4, h5⟩
      rcases i with _ | i
      · left
        have e1 : a = p := by simpa using h1
        have e2 : b = q := by simpa using h2
        subst e1 e2
        rw [if_pos ⟨h3, h4⟩, h5]; simp
      · right; exact ⟨i, p, q, h1, h2, h3, h4, h5⟩

theorem changesOf_times : ∀ (segs : List (F32 × Key × F32)),
    ((changesOf segs).map Change.time).Sublist (segs.tail.map Prod.fst)
  | [] => by simp [changesOf]
  | [a] => by simp [changesOf]
  | a :: b :: l => by
    have ih : ((changesOf (b :: l)).map Change.time).Sublist (l.map Prod.fst) := changesOf_times (b :: l)
    rw [changesOf, List.map_append, List.tail_cons, List.map_cons]
    split_ifs
    · exact ih.cons_cons _
    · exact ih.cons _

theorem usize_mul_pos {x y : F32} (hy : 0 ≤ y ∨ y = nan) (h : 0 < (x * y).toUsize) : 0 < y := by
  rcases hy with hy | rfl
  · by_contra hc
    have h0 : y = 0 := F32.le_antisymm (F32.le_of_not_lt (ne_nan_right hy) (by decide +kernel) hc) hy
    subst h0
    rcases x with _ | b | ⟨v, hv⟩
    · exact absurd h (by decide +kernel)
    · exact absurd h (by cases b <;> decide +kernel)
    · rw [zero_def, mul_fin, mul_zero, rnd_zero] at h; exact absurd h (by decide +kernel)
  · rw [mul_nan] at h; exact absurd h (by decide +kernel)

/-- **C45**: whenever `detect_key_changes` returns, under every hash order of both maps: the segments are in time order and
are exactly the detections of the windows that lie in the signal, one every `len - ov` frames; the key changes are exactly
the boundaries between consecutive segments in different keys whose mean confidence exceeds 0.2, in time order; and the
primary key has the largest number of segments, with their mean confidence. -/
theorem C45_timeline (ord : List (Key × F32) → List (Key × F32)) (ordC : List (Key × ℕ × F32) → List (Key × ℕ × F32))
    (hordC : ∀ l, (ordC l).Perm l) (chroma : List (List F32)) (hn : chroma.length < 2 ^ 64) (sr hop : ℕ) (T : Templates)
    (dur overlap : F32) (c : Changes) (h : keyChanges ord ordC chroma sr hop T dur overlap = .ok c)
    (fps : F32) (hf : fps = F32.ofNat sr / F32.ofNat hop) (len ov : ℕ) (hl : len = (dur * fps).toUsize)
    (ho : ov = (overlap * fps).toUsize) :
    ov < len ∧ c.segments ≠ [] ∧ c.segments.Pairwise (fun a b => a.1 ≤ b.1) ∧
    (∀ g, g ∈ c.segments ↔ ∃ s r, s + len ≤ chroma.length ∧ (len - ov) ∣ s ∧
      detectKey ord ((chroma.drop s).take len) T none = .ok r ∧ g = (F32.ofNat s / fps, r.key, r.conf)) ∧
    c.changes.Pairwise (fun a b => a.time ≤ b.time) ∧
    (∀ ch, ch ∈ c.changes ↔ ∃ (i : ℕ) (p q : F32 × Key × F32), c.segments[i]? = some p ∧ c.segments[i + 1]? = some q ∧
      p.2.1 ≠ q.2.1 ∧ (0.2 : F32) < (p.2.2 + q.2.2) / 2 ∧ ch = ⟨q.1, p.2.1, q.2.1, (p.2.2 + q.2.2) / 2⟩) ∧
    0 < segCount c.segments c.primary ∧ (∀ k, segCount c.segments k ≤ segCount c.segments c.primary) ∧
    c.primaryConf = F32.sum ((c.segments.filter (fun s => decide (s.2.1 = c.primary))).map (fun s => s.2.2)) /
      F32.ofNat (segCount c.segments c.primary) := by
  unfold keyChanges at h
  dsimp only at h
  rw [← hf, ← hl, ← ho] at h
  split_ifs at h with h1 h2 h3
  rw [not_or] at h3
  rcases hs : changeSegments ord chroma T fps len (segStarts chroma.length len (len - ov)) with e | segs
  · rw [hs] at h; cases h
  rw [hs] at h
  replace h : (if segs = [] then R.err .invalidInput else _) = _ := h
  split_ifs at h with h4
  have hov : ov < len := by omega
  have hhop : 0 < len - ov := by omega
  -- the counts
  have hcount := counted_fold (fun p : F32 × Key × F32 => (p.2.1, p.2.2)) segs [] [] counted_nil
  rw [List.nil_append] at hcount
  generalize hm : segs.foldl (fun m p => countKey p.2.1 p.2.2 m) [] = m at h hcount
  have hperm := hordC m
  rcases hcs : ordC m with _ | ⟨e0, es⟩
  · rw [hcs] at h; cases h
  rw [hcs] at h hperm
  cases h
  obtain ⟨l, hsub, hdet, hsegs, hall⟩ := changeSegments_spec hs
  have hlens : ∀ x ∈ l, x.1 + len ≤ chroma.length ∧ (len - ov) ∣ x.1 := fun x hx =>
    (mem_segStarts hhop).1 (hsub.subset (List.mem_map_of_mem hx))
  have hfps : 0 < fps := by
    refine usize_mul_pos (x := dur) ?_ (by rw [← hl]; omega)
    by_cases hnn : fps = nan
    · exact Or.inr hnn
    · left; rw [hf] at hnn ⊢
      exact F32.div_nonneg (ofNat_nonneg _) (ofNat_nonneg _) hnn
  have hsorted : segs.Pairwise (fun a b => a.1 ≤ b.1) := by
    rw [hsegs, List.pairwise_map]
    have := (segStarts_sorted (n := chroma.length) (len := len) hhop).sublist hsub
    rw [List.pairwise_map] at this
    refine List.Pairwise.imp_of_mem (fun {a b} ha hb hab => ?_) this
    have := (hlens b hb).1
    have hfin : ∀ k, k ≤ chroma.length → F32.ofNat k / fps ≠ nan := fun k hk =>
      div_fin_ne_nan (ofNat_finite (le_trans (le_of_lt (lt_of_le_of_lt hk hn)) (by norm_num))) hfps
    exact F32.div_le_div_right (ofNat_mono (le_of_lt hab)) hfps (hfin _ (by omega)) (hfin _ (by omega))
  -- the best entry
  have hbest := foldMaxBy_spec (fun _ => True) (fun (a b : Key × ℕ × F32) => decide (b.2.1 < a.2.1)) (fun a b => a.2.1 ≤ b.2.1)
    (fun a _ => le_refl _) (fun a b c _ _ _ => le_trans) (fun a b _ _ hab => le_of_lt (by simpa using hab))
    (fun a b _ _ hab => by simpa using hab) es e0 (by simp)
  simp only [decide_eq_true_eq] at hbest
  dsimp only at hbest ⊢
  generalize es.foldl (fun m x => if x.2.1 < m.2.1 then m else x) e0 = best at hbest ⊢
  have hbm : best ∈ m := hperm.mem_iff.1 (by rcases hbest.1 with e | e <;> simp [e])
  have hmax : ∀ e ∈ m, e.2.1 ≤ best.2.1 := by
    intro e he
    rcases List.mem_cons.1 (hperm.mem_iff.2 he) with rfl | he
    · exact hbest.2.1
    · exact hbest.2.2 e he
  have hcnt : ∀ k, ((segs.map (fun p : F32 × Key × F32 => (p.2.1, p.2.2))).filter (fun p => decide (p.1 = k))) =
      (segs.filter (fun s => decide (s.2.1 = k))).map (fun p => (p.2.1, p.2.2)) := by
    intro k; rw [List.filter_map]; rfl
  have hb1 : best.2.1 = segCount segs best.1 := by
    rw [hcount.count best hbm, hcnt, List.length_map]; rfl
  refine ⟨hov, h4, hsorted, ?_, ?_, mem_changesOf segs, ?_, ?_, ?_⟩
  · intro g
    rw [hsegs, List.mem_map]
    constructor
    · rintro ⟨x, hx, rfl⟩
      exact ⟨x.1, x.2, (hlens x hx).1, (hlens x hx).2, hdet x hx, rfl⟩
    · rintro ⟨s, r, a1, a2, a3, rfl⟩
      exact ⟨(s, r), hall s ((mem_segStarts hhop).2 ⟨a1, a2⟩) r a3, rfl⟩
  · have := ((List.pairwise_map.2 hsorted).sublist ((List.tail_sublist segs).map Prod.fst)).sublist (changesOf_times segs)
    exact List.pairwise_map.1 this
  · rw [← hb1]; exact hcount.pos best hbm
  · intro k
    by_cases hk : k ∈ m.map Prod.fst
    · obtain ⟨e, he, rfl⟩ := List.mem_map.1 hk
      have := hmax e he
      rw [hcount.count e he, hcnt, List.length_map, hb1] at this
      exact this
    · rw [hcount.all] at hk
      have : segCount segs k = 0 := by
        unfold segCount
        rw [List.length_eq_zero_iff, List.filter_eq_nil_iff]
        intro s hs' hk'
        exact hk (by rw [List.map_map]; exact List.mem_map.2 ⟨s, hs', by simpa using hk'⟩)
      omega
  · rw [hcount.sum best hbm, hcnt, List.map_map, hb1]; rfl

/-- non-vacuity: two one-second windows over two frames at one frame per second; both segments are reported -/
example : (match keyChanges id id [krumhanslKessler.getMajor 0, krumhanslKessler.getMajor 6] 1 1 krumhanslKessler 1 0 with
    | .ok c => decide (c.segments.length = 2) && decide (c.segments.map (fun s => s.2.1) = [.minor 9, .minor 3])
    | .error _ => false) = true := by decide +kernel

/-- **C45**: outside the claim, an overlap longer than the segment panics (line 95, subtraction underflow). -/
theorem C45_outside (ord : List (Key × F32) → List (Key × F32)) (ordC : List (Key × ℕ × F32) → List (Key × ℕ × F32))
    (chroma : List (List F32)) (hne : chroma ≠ []) (sr hop : ℕ) (T : Templates) (dur overlap : F32)
    (h : (dur * (F32.ofNat sr / F32.ofNat hop)).toUsize < (overlap * (F32.ofNat sr / F32.ofNat hop)).toUsize) :
    keyChanges ord ordC chroma sr hop T dur overlap = R.panic := by
  unfold keyChanges
  rw [if_neg hne]
  dsimp only
  rw [if_pos h]

/-- non-vacuity: eight-second segments overlapping by ten seconds at 44.1 kHz -/
example : ((8 : F32) * (F32.ofNat 44100 / F32.ofNat 512)).toUsize < ((10 : F32) * (F32.ofNat 44100 / F32.ofNat 512)).toUsize := by
  decide +kernel

/-! ### C62 -/

/-- frames a chroma extractor delivers: twelve values in [0,1], one of them at least 0.01 -/
def Audible (c : List F32) : Prop := c.length = 12 ∧ (∀ x ∈ c, 0 ≤ x ∧ x ≤ 1) ∧ ∃ x ∈ c, 0.01 ≤ x

/-- templates of twelve weights between 0.1 and 1 (both built-in families) -/
def FullTemplates (T : Templates) : Prop :=
  (∀ k, (T.major k).length = 12 ∧ ∀ x ∈ T.major k, 0.1 ≤ x ∧ x ≤ 1) ∧
  ∀ k, (T.minor k).length = 12 ∧ ∀ x ∈ T.minor k, 0.1 ≤ x ∧ x ≤ 1

theorem dot_audible_big {c t : List F32} (hc : Audible c) (ht : t.length = 12 ∧ ∀ x ∈ t, 0.1 ≤ x ∧ x ≤ 1) :
    0 ≤ dot c t ∧ (0.01 : F32) * 0.1 ≤ dot c t := by
  have ht0 : ∀ x ∈ t, 0 ≤ x ∧ x ≤ 1 := fun x hx => ⟨F32.le_trans (by decide +kernel) (ht.2 x hx).1, (ht.2 x hx).2⟩
  have hb := dot_bound hc.2.1 ht0 (by rw [hc.1])
  refine ⟨hb.1, ?_⟩
  obtain ⟨x, hx, hx1⟩ := hc.2.2
  obtain ⟨i, hi, rfl⟩ := List.getElem_of_mem hx
  have hi' : i < t.length := by rw [ht.1, ← hc.1]; exact hi
  have h1 : c[i] * t[i] ≤ dot c t := by
    unfold dot
    refine le_sum ?_ ?_
    · intro y hy
      obtain ⟨j, hj, rfl⟩ := List.getElem_of_mem hy
      rw [List.getElem_zipWith]
      have h1 := hc.2.1 _ (List.getElem_mem (by rw [List.length_zipWith] at hj; omega : j < c.length))
      have h2 := ht0 _ (List.getElem_mem (by rw [List.length_zipWith] at hj; omega : j < t.length))
      exact (unit_mul h1.1 h1.2 h2.1 h2.2).1
    · have : i < (List.zipWith (· * ·) c t : List F32).length := by rw [List.length_zipWith]; omega
      have e : (List.zipWith (· * ·) c t : List F32)[i] = c[i] * t[i] := List.getElem_zipWith
      rw [← e]; exact List.getElem_mem this
  have h2 : (0.01 : F32) * 0.1 ≤ c[i] * t[i] := by
    have t1 := (ht.2 _ (List.getElem_mem hi')).1
    have u := unit_mul (hc.2.1 _ hx).1 (hc.2.1 _ hx).2 (ht0 _ (List.getElem_mem hi')).1 (ht0 _ (List.getElem_mem hi')).2
    refine F32.le_trans (F32.mul_le_mul_of_nonneg_left t1 (by decide +kernel) (by decide +kernel) ?_)
      (F32.mul_le_mul_of_nonneg_right hx1 (ht0 _ (List.getElem_mem hi')).1 ?_ (ne_nan_right u.1))
    all_goals
      exact ne_nan_right (unit_mul (a := (0.01 : F32)) (by decide +kernel) (by decide +kernel) (ht0 _ (List.getElem_mem hi')).1
        (ht0 _ (List.getElem_mem hi')).2).1
  exact F32.le_trans h2 h1

theorem dot_audible {c t : List F32} (hc : Audible c) (ht : t.length = 12 ∧ ∀ x ∈ t, 0.1 ≤ x ∧ x ≤ 1) :
    0 ≤ dot c t ∧ 1e-9 < dot c t :=
  ⟨(dot_audible_big hc ht).1, F32.lt_of_lt_of_le (by decide +kernel) (dot_audible_big hc ht).2⟩

theorem match_audible {chroma : List (List F32)} {t : List F32} (hne : chroma ≠ []) (hc : ∀ c ∈ chroma, Audible c)
    (ht : t.length = 12 ∧ ∀ x ∈ t, 0.1 ≤ x ∧ x ≤ 1) : 1e-9 < weightedSumDot chroma none t := by
  have e : weightedSumDot chroma none t = F32.sum (chroma.map (fun c => dot c t)) := by
    unfold weightedSumDot F32.sum
    rw [List.foldl_map]
  rw [e]
  obtain ⟨c, hcm⟩ := List.exists_mem_of_ne_nil _ hne
  refine F32.lt_of_lt_of_le (dot_audible (hc c hcm) ht).2 (le_sum ?_ (List.mem_map_of_mem hcm))
  intro y hy
  obtain ⟨c', hc', rfl⟩ := List.mem_map.1 hy
  exact (dot_audible (hc c' hc') ht).1

/-- **C62 violated**, for every input: on frames of twelve values in [0,1] with at least one value 0.01 or more, whatever
the keys of the segments, no key change is ever reported and the confidence in the primary key is exactly 0. -/
theorem C62_violated (ord : List (Key × F32) → List (Key × F32)) (hord : ∀ l, (ord l).Perm l)
    (ordC : List (Key × ℕ × F32) → List (Key × ℕ × F32))
    (hordC : ∀ l, (ordC l).Perm l) (chroma : List (List F32)) (hn : chroma.length < 2 ^ 64) (sr hop : ℕ) (T : Templates)
    (hc : ∀ f ∈ chroma, Audible f) (hT : FullTemplates T)
    (dur overlap : F32) (c : Changes) (h : keyChanges ord ordC chroma sr hop T dur overlap = .ok c) :
    c.changes = [] ∧ c.primaryConf = 0 := by
  obtain ⟨h1, h2, -, h4, -, h6, h7, -, h9⟩ := C45_timeline ord ordC hordC chroma hn sr hop T dur overlap c h _ rfl _ _ rfl rfl
  have hz : ∀ g ∈ c.segments, g.2.2 = 0 := by
    intro g hg
    obtain ⟨s, r, a1, a2, a3, rfl⟩ := (h4 g).1 hg
    generalize hw : (chroma.drop s).take _ = w at a3
    have hsub : ∀ f ∈ w, Audible f := fun f hf => hc f (List.mem_of_mem_drop (List.mem_of_mem_take (hw ▸ hf)))
    have hwne : w ≠ [] := by
      intro e
      rw [← List.length_eq_zero_iff, ← hw, List.length_take, List.length_drop] at e
      omega
    refine (C59_violated ord hord w none T ⟨hwne, fun f hf => ⟨(hsub f hf).1, (hsub f hf).2.1⟩, by simp, by simp⟩ ?_ r a3
      ⟨0, by decide, match_audible hwne hsub (hT.1 _)⟩ ⟨0, by decide, match_audible hwne hsub (hT.2 _)⟩).1
    exact ⟨fun k x hx => ⟨F32.le_trans (by decide +kernel) ((hT.1 k).2 x hx).1, ((hT.1 k).2 x hx).2⟩,
      fun k x hx => ⟨F32.le_trans (by decide +kernel) ((hT.2 k).2 x hx).1, ((hT.2 k).2 x hx).2⟩⟩
  constructor
  · rw [List.eq_nil_iff_forall_not_mem]
    intro ch hch
    obtain ⟨i, p, q, e1, e2, -, e4, -⟩ := (h6 ch).1 hch
    rw [hz p (List.mem_of_getElem? e1), hz q (List.mem_of_getElem? e2)] at e4
    exact absurd e4 (by decide +kernel)
  · have hs : ∀ l : List F32, (∀ x ∈ l, x = 0) → F32.sum l = 0 := by
      intro l hl
      unfold F32.sum
      induction l with
      | nil => rfl
      | cons x l ih =>
        rw [List.foldl_cons, hl x (by simp), show (0 : F32) + 0 = 0 by decide +kernel]
        exact ih (fun y hy => hl y (by simp [hy]))
    rw [h9, hs]
    · have := ofNat_pos h7
      generalize F32.ofNat (segCount c.segments c.primary) = y at this
      rcases y with _ | b | ⟨v, hv⟩
      · exact absurd this (by decide +kernel)
      · cases b
        · decide +kernel
        · exact absurd this (by decide +kernel)
      · rw [zero_def] at this
        rw [zero_def, div_fin (ne_of_gt (fin_lt_fin.1 this)), zero_div, rnd_zero, zero_def]
    · intro x hx
      obtain ⟨g, hg, rfl⟩ := List.mem_map.1 hx
      exact hz g (List.mem_of_mem_filter hg)

/-- non-vacuity: C major, then F sharp major; built-in templates.  Detection reports the two segments in different keys
(example after `C45_timeline`) and no change. -/
example : (∀ f ∈ [krumhanslKessler.getMajor 0, krumhanslKessler.getMajor 6], Audible f) ∧ FullTemplates krumhanslKessler ∧
    FullTemplates temperley := by
  refine ⟨?_, ⟨by decide +kernel, by decide +kernel⟩, ⟨by decide +kernel, by decide +kernel⟩⟩
  unfold Audible; decide +kernel

end Verif.Props
