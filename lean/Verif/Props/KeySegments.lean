/-
Property theorem C61 (continued): what the multi-scale scores are made of (src/features/key/detector.rs lines 546-700).
-/
import Verif.Props.KeyVariants
import Mathlib.Data.List.Sort

namespace Verif.Props
open Verif Verif.Keys Verif.KeyDet F32

/-- the score a detection gives to a key -/
def scoreOf (l : List (Key × F32)) (k : Key) : F32 := ((l.find? (fun p => decide (p.1 = k))).map Prod.snd).getD 0

/-- a window of frames with the weight of its scale -/
structure Window where
  start : ℕ
  len : ℕ
  scale : F32

/-- weight of scale number `i` -/
def scaleOf (sws : Option (List F32)) (i : ℕ) : F32 :=
  match sws with
  | some w => w.getD i 1
  | none => 1

/-- the windows of `n` frames, scale after scale: every multiple of the hop that leaves room for the length -/
def windows (n hop : ℕ) (sws : Option (List F32)) (lens : List ℕ) : List Window :=
  (lens.zipIdx).flatMap (fun p =>
    if p.1 = 0 ∨ scaleOf sws p.2 ≤ 0 then []
    else ((List.range (n + 1)).filter (fun s => decide (s % max hop 1 = 0) && decide (s + p.1 ≤ n))).map
      (fun s => ⟨s, p.1, scaleOf sws p.2⟩))

/-- the frame weights of a window, if they cover it -/
def Window.weights (x : Window) (weights : Option (List F32)) : Option (List F32) :=
  match weights with
  | none => none
  | some w => if x.start + x.len ≤ w.length then some ((w.drop x.start).take x.len) else none

/-- a detection with its clarity -/
structure Heard where
  window : Window
  det : Res
  clarity : F32

/-- weight of a window in the vote -/
def Heard.weight (x : Heard) : F32 := x.clarity * x.window.scale

theorem segStarts_eq (n len hop : ℕ) (hh : 0 < hop) :
    segStarts n len hop = (List.range (n + 1)).filter (fun s => decide (s % hop = 0) && decide (s + len ≤ n)) := by
  have p1 : (segStarts n len hop).Pairwise (· < ·) := by
    unfold segStarts
    split_ifs
    · exact List.pairwise_lt_range.map _ (fun a b h => Nat.mul_lt_mul_of_pos_right h hh)
    · exact List.Pairwise.nil
  have p2 : ((List.range (n + 1)).filter (fun s => decide (s % hop = 0) && decide (s + len ≤ n))).Pairwise (· < ·) :=
    List.pairwise_lt_range.filter _
  refine p1.eq_of_mem_iff p2 (fun a => ?_)
  rw [mem_segStarts hh, List.mem_filter, List.mem_range]
  simp only [Bool.and_eq_true, decide_eq_true_eq, Nat.dvd_iff_mod_eq_zero]
  constructor
  · rintro ⟨h1, h2⟩; exact ⟨by omega, h2, h1⟩
  · rintro ⟨_, h2, h1⟩; exact ⟨h1, h2⟩

/-- what the accumulated scores are after the windows `hs` -/
structure AccSum (minC : F32) (hs : List Heard) (acc acc' : Acc) : Prop where
  scores : acc'.scores = acc.scores.map (fun q =>
    (q.1, (hs.filter (fun x => decide (minC ≤ x.clarity))).foldl (fun v x => v + scoreOf x.det.all q.1 * x.weight) q.2))
  weight : acc'.weight = (hs.filter (fun x => decide (minC ≤ x.clarity))).foldl (fun v x => v + x.weight) acc.weight
  used : acc'.used = acc.used + (hs.filter (fun x => decide (minC ≤ x.clarity))).length

theorem AccSum.nil (minC : F32) (acc : Acc) : AccSum minC [] acc acc := ⟨by simp, by simp, by simp⟩

theorem AccSum.append {minC : F32} {h1 h2 : List Heard} {a b c : Acc} (x : AccSum minC h1 a b) (y : AccSum minC h2 b c) :
    AccSum minC (h1 ++ h2) a c := by
  refine ⟨?_, ?_, ?_⟩
  · rw [y.scores, x.scores, List.map_map, List.filter_append]
    apply List.map_congr_left
    intro q _
    simp only [Function.comp, List.foldl_append]
  · rw [y.weight, x.weight, List.filter_append, List.foldl_append]
  · rw [y.used, x.used, List.filter_append, List.length_append]; omega

theorem accSegment_sum {minC sw : F32} {acc acc' : Acc} {r : Res} (hk : (r.all.map Prod.fst).Perm allKeys)
    (ha : acc.scores.map Prod.fst = allKeys) (h : accSegment minC sw acc r = .ok acc') (s len : ℕ) :
    ∃ c, keyClarity r.all = .ok c ∧ AccSum minC [⟨⟨s, len, sw⟩, r, c⟩] acc acc' := by
  unfold accSegment at h
  obtain ⟨c, hc, h⟩ := R.bind_eq_ok.1 h
  refine ⟨c, hc, ?_⟩
  have hnd : (r.all.map Prod.fst).Nodup := hk.nodup_iff.2 (by decide)
  split_ifs at h with hm
  · cases h
    refine ⟨?_, by simp [hm, Heard.weight], by simp [hm]⟩
    dsimp only
    rw [fold_add _ _ _ hnd]
    apply List.map_congr_left
    intro q hq
    have hq' : q.1 ∈ r.all.map Prod.fst := hk.mem_iff.2 (by rw [← ha]; exact List.mem_map_of_mem hq)
    obtain ⟨p, hp, e⟩ := List.mem_map.1 hq'
    rcases hf : r.all.find? (fun p => decide (p.1 = q.1)) with _ | p'
    · exact absurd (List.find?_eq_none.1 hf p hp) (by simp [e])
    · simp [hm, scoreOf, hf, Heard.weight]
  · cases h
    exact ⟨by simp [hm], by simp [hm], by simp [hm]⟩

theorem AccSum.keys {minC : F32} {hs : List Heard} {a b : Acc} (x : AccSum minC hs a b) (ha : a.scores.map Prod.fst = allKeys) :
    b.scores.map Prod.fst = allKeys := by
  rw [x.scores, List.map_map, ← ha]
  apply List.map_congr_left
  intro q _
  rfl

/-- the windows heard are detected with `det` on the frames of the window -/
def HeardBy (det : List (List F32) → Option (List F32) → R Res) (chroma : List (List F32)) (weights : Option (List F32))
    (x : Heard) : Prop :=
  det ((chroma.drop x.window.start).take x.window.len) (x.window.weights weights) = .ok x.det ∧ keyClarity x.det.all = .ok x.clarity

theorem segWeights_eq (weights : Option (List F32)) (s len : ℕ) (sw : F32) :
    segWeights weights s len = (⟨s, len, sw⟩ : Window).weights weights := by
  unfold segWeights Window.weights
  cases weights <;> rfl

theorem accSegments_sum {det : List (List F32) → Option (List F32) → R Res}
    (hdet : ∀ c w r, det c w = .ok r → (r.all.map Prod.fst).Perm allKeys) {chroma : List (List F32)}
    {weights : Option (List F32)} {minC sw : F32} {len : ℕ} :
    ∀ (starts : List ℕ) (acc acc' : Acc), acc.scores.map Prod.fst = allKeys →
      accSegments det chroma weights minC sw len starts acc = .ok acc' →
      ∃ hs : List Heard, hs.map Heard.window = starts.map (fun s => ⟨s, len, sw⟩) ∧ (∀ x ∈ hs, HeardBy det chroma weights x) ∧
        AccSum minC hs acc acc'
  | [], acc, acc', _, h => by
    rw [accSegments] at h
    cases h
    exact ⟨[], rfl, by simp, AccSum.nil _ _⟩
  | s :: ss, acc, acc', ha, h => by
    rw [accSegments] at h
    obtain ⟨r, hr, h⟩ := R.bind_eq_ok.1 h
    obtain ⟨a, hs, h⟩ := R.bind_eq_ok.1 h
    obtain ⟨c, hc, hsum⟩ := accSegment_sum (hdet _ _ _ hr) ha hs s len
    obtain ⟨hs', e1, e2, e3⟩ := accSegments_sum hdet ss a acc' (hsum.keys ha) h
    refine ⟨⟨⟨s, len, sw⟩, r, c⟩ :: hs', by simp [e1], ?_, ?_⟩
    · intro x hx
      rcases List.mem_cons.1 hx with rfl | hx
      · exact ⟨by rw [segWeights_eq weights s len sw] at hr; exact hr, hc⟩
      · exact e2 x hx
    · exact hsum.append e3

theorem accScales_sum {det : List (List F32) → Option (List F32) → R Res}
    (hdet : ∀ c w r, det c w = .ok r → (r.all.map Prod.fst).Perm allKeys) {chroma : List (List F32)}
    {weights : Option (List F32)} {minC : F32} {hop : ℕ} {sws : Option (List F32)} :
    ∀ (lens : List ℕ) (i : ℕ) (acc acc' : Acc), acc.scores.map Prod.fst = allKeys →
      accScales det chroma weights minC hop sws i lens acc = .ok acc' →
      ∃ hs : List Heard, hs.map Heard.window = (lens.zipIdx i).flatMap (fun p =>
          if p.1 = 0 ∨ scaleOf sws p.2 ≤ 0 then []
          else ((List.range (chroma.length + 1)).filter (fun s => decide (s % max hop 1 = 0) && decide (s + p.1 ≤ chroma.length))).map
            (fun s => (⟨s, p.1, scaleOf sws p.2⟩ : Window))) ∧
        (∀ x ∈ hs, HeardBy det chroma weights x) ∧ AccSum minC hs acc acc'
  | [], i, acc, acc', _, h => by
    rw [accScales] at h
    cases h
    exact ⟨[], rfl, by simp, AccSum.nil _ _⟩
  | len :: lens, i, acc, acc', ha, h => by
    have esw : ((sws.bind (fun w => w[i]?))).getD 1 = scaleOf sws i := by
      cases sws with
      | none => rfl
      | some w => simp [scaleOf, List.getD_eq_getElem?_getD]
    rw [accScales] at h
    rw [List.zipIdx_cons, List.flatMap_cons]
    dsimp only at h ⊢
    rw [esw] at h
    generalize scaleOf sws i = sw at h ⊢
    rw [← segStarts_eq _ _ _ (by omega)]
    split_ifs at h with hc
    · obtain ⟨hs, e1, e2, e3⟩ := accScales_sum hdet lens (i + 1) acc acc' ha h
      refine ⟨hs, ?_, e2, e3⟩
      rw [e1]
      rcases hc with hc | hc | hc
      · rw [if_pos (.inl hc)]; rfl
      · have : segStarts chroma.length len (max hop 1) = [] := by
          unfold segStarts; rw [if_neg (by omega)]
        rw [this]
        split_ifs <;> rfl
      · rw [if_pos (.inr hc)]; rfl
    · push Not at hc
      obtain ⟨a, h1, h⟩ := R.bind_eq_ok.1 h
      obtain ⟨hs1, a1, a2, a3⟩ := accSegments_sum hdet _ acc a ha h1
      obtain ⟨hs, e1, e2, e3⟩ := accScales_sum hdet lens (i + 1) a acc' (a3.keys ha) h
      refine ⟨hs1 ++ hs, ?_, ?_, a3.append e3⟩
      · rw [List.map_append, a1, e1, if_neg (by push Not; exact ⟨hc.1, hc.2.2⟩)]
      · intro x hx
        rcases List.mem_append.1 hx with hx | hx
        · exact a2 x hx
        · exact e2 x hx

theorem detectWith_keys {ord : List (Key × F32) → List (Key × F32)} {chroma : List (List F32)}
    {T : Templates} {w : Option (List F32)} {modeOn bonus : Bool} {tm fm bw : F32} {r : Res}
    (h : detectWith ord chroma T w modeOn tm fm bonus bw = .ok r) : (r.all.map Prod.fst).Perm allKeys := by
  unfold detectWith at h
  split at h
  · exact mode_keys h
  · exact (detectKey_all h).1

theorem foldl_map_sum (f : Heard → F32) : ∀ (l : List Heard) (v : F32),
    l.foldl (fun v x => v + f x) v = (l.map f).foldl (· + ·) v
  | [], v => rfl
  | x :: l, v => by rw [List.foldl_cons, List.map_cons, List.foldl_cons, foldl_map_sum f l]

/-- C61: the multi-scale detection listens to every window of the requested lengths, in order, and keeps those whose
    detection is at least as clear as the threshold.  The score of each of the 24 keys is the average of its scores in the
    clear windows, weighted by clarity times scale weight.  Without a clear window (or without weight) the answer is
    the detection over the whole track. -/
theorem C61_scores (ord : List (Key × F32) → List (Key × F32)) (chroma : List (List F32)) (T : Templates)
    (weights : Option (List F32)) (lens : List ℕ) (hop : ℕ) (minC : F32) (sws : Option (List F32)) (modeOn : Bool) (tm fm : F32)
    (bonus : Bool) (bw : F32) (r : Res)
    (h : detectMultiScale ord chroma T weights lens hop minC sws modeOn tm fm bonus bw = .ok r) :
    ∃ hs : List Heard, hs.map Heard.window = windows chroma.length hop sws lens ∧
      (∀ x ∈ hs, HeardBy (fun c w => detectWith ord c T w modeOn tm fm bonus bw) chroma weights x) ∧
      let clear := hs.filter (fun x => decide (minC ≤ x.clarity))
      let total := F32.sum (clear.map Heard.weight)
      ((clear = [] ∨ total ≤ 1e-12) → detectWith ord chroma T weights modeOn tm fm bonus bw = .ok r) ∧
      (clear ≠ [] → ¬ total ≤ 1e-12 →
        r.all.Pairwise (fun p q => q.2 ≤ p.2) ∧
        ∀ k, ValidKey k → (k, F32.sum (clear.map (fun x => scoreOf x.det.all k * x.weight)) / total) ∈ r.all) := by
  unfold detectMultiScale at h
  split_ifs at h
  obtain ⟨acc, h1, h⟩ := R.bind_eq_ok.1 h
  have hdet : ∀ c w r, detectWith ord c T w modeOn tm fm bonus bw = .ok r → (r.all.map Prod.fst).Perm allKeys :=
    fun _ _ _ hr => detectWith_keys hr
  obtain ⟨hs, e1, e2, e3⟩ := accScales_sum (det := fun c w => detectWith ord c T w modeOn tm fm bonus bw) hdet lens 0 _ acc
    (by dsimp only; rw [List.map_map]; exact List.map_id _) h1
  refine ⟨hs, e1, e2, ?_⟩
  dsimp only
  have hw : acc.weight = F32.sum ((hs.filter (fun x => decide (minC ≤ x.clarity))).map Heard.weight) := by
    rw [e3.weight, foldl_map_sum]; rfl
  have hu : acc.used = (hs.filter (fun x => decide (minC ≤ x.clarity))).length := by rw [e3.used]; simp
  have hu0 : acc.used = 0 ↔ hs.filter (fun x => decide (minC ≤ x.clarity)) = [] := by rw [hu]; exact List.length_eq_zero_iff
  rw [← hw, ← hu0]
  split_ifs at h with hc
  · exact ⟨fun _ => h, fun a b => absurd hc (by push Not; exact ⟨hu0.not.2 a, b⟩)⟩
  · refine ⟨fun a => absurd a hc, fun _ _ => ?_⟩
    obtain ⟨sc, hsc, h⟩ := R.bind_eq_ok.1 h
    cases h
    dsimp only
    unfold sortDescP at hsc
    split_ifs at hsc with hn
    cases hsc
    have hk : acc.scores.map Prod.fst = allKeys := e3.keys (by dsimp only; rw [List.map_map]; exact List.map_id _)
    have hlen : 2 ≤ (acc.scores.map (fun p => (p.1, p.2 / acc.weight))).length := by
      have := congrArg List.length hk
      rw [List.length_map] at this ⊢
      rw [this]; decide
    constructor
    · apply sortDesc_pairwise
      intro a ha e
      unfold sortMeetsNaN at hn
      rw [decide_eq_true hlen, Bool.true_and, List.any_eq_true] at hn
      exact hn ⟨a, ha, by rw [e]; rfl⟩
    · intro k hv
      rw [mem_sortDesc, e3.scores, List.map_map, List.mem_map]
      refine ⟨(k, 0), ?_, ?_⟩
      · exact List.mem_map.2 ⟨k, (validKey_iff k).1 hv, rfl⟩
      · simp only [Function.comp]
        rw [foldl_map_sum]
        rfl

/-- two frames of C major followed by two frames of G major and one blurred frame -/
def twoKeys : List (List F32) :=
  [krumhanslKessler.getMajor 0, krumhanslKessler.getMajor 0, krumhanslKessler.getMajor 7, krumhanslKessler.getMajor 7,
    List.replicate 12 1]

-- windows of two frames, every two frames: both are clear, and the average of C and G major
-- is won by E minor
example : (windows 5 2 none [2]).map Window.start = [0, 2] ∧
    (match detectMultiScale id twoKeys krumhanslKessler none [2] 2 0.2 none false 0 0 false 0 with
      | .ok r => decide (r.key = .minor 4) && decide (r.all.length = 24)
      | _ => false) = true ∧
    (match keyClarity (match detectKey id (twoKeys.take 2) krumhanslKessler none with | .ok r => r.all | _ => []) with
      | .ok q => decide ((0.5 : F32) ≤ q) | _ => false) = true := by decide +kernel

end Verif.Props
