/-
Property theorems C91 and C92: the segment vote of `analyze_audio` (src/lib.rs lines 1332-1436).
-/
import Verif.Props.ReportKey
import Verif.Props.KeySegments

namespace Verif.Props
open Verif Verif.Keys Verif.KeyDet Verif.Analyze F32

/-- the settings under which `analyze_audio` lets segments vote on the key of `n` frames -/
structure Voting (c : Config) (n : ℕ) : Prop where
  ensemble : c.enableEnsemble = false
  multi : c.enableMultiScale = false
  on : c.enableSegments = true
  len : 120 ≤ c.segLen
  fits : c.segLen ≤ n
  hop : 1 ≤ c.segHop

/-- the windows of the vote: every multiple of the hop (at most one window length) that leaves room for a window -/
def voteWindows (c : Config) (n : ℕ) : List Window :=
  ((List.range (n + 1)).filter (fun s => decide (s % Nat.min c.segHop c.segLen = 0) && decide (s + c.segLen ≤ n))).map
    (fun s => ⟨s, c.segLen, 1⟩)

/-- the votes of the clear windows for a key: its scores there, each times the clarity of the window -/
def votesFor (clear : List Heard) (k : Key) : F32 := F32.sum (clear.map (fun x => scoreOf x.det.all k * x.clarity))

theorem slice_eq {α} {l x : List α} {a len : ℕ} (h : slice l a (a + len) = .ok x) : a + len ≤ l.length ∧ x = (l.drop a).take len := by
  unfold slice at h
  split_ifs at h with hc
  cases h
  refine ⟨hc.2, ?_⟩
  first
    | rw [Nat.add_sub_cancel_left]
    | (rw [List.drop_take, Nat.add_sub_cancel_left])

/-- what the votes are after the windows `hs` -/
def VoteSum (minC : F32) (hs : List Heard) (acc acc' : List (Key × F32) × ℕ) : Prop :=
  acc'.1 = acc.1.map (fun q => (q.1, (hs.filter (fun x => decide (minC ≤ x.clarity))).foldl
    (fun v x => v + scoreOf x.det.all q.1 * x.clarity) q.2)) ∧
  acc'.2 = acc.2 + (hs.filter (fun x => decide (minC ≤ x.clarity))).length

theorem VoteSum.append {minC : F32} {h1 h2 : List Heard} {a b c : List (Key × F32) × ℕ} (x : VoteSum minC h1 a b)
    (y : VoteSum minC h2 b c) : VoteSum minC (h1 ++ h2) a c := by
  refine ⟨?_, ?_⟩
  · rw [y.1, x.1, List.map_map, List.filter_append]
    apply List.map_congr_left
    intro q _
    simp only [Function.comp, List.foldl_append]
  · rw [y.2, x.2, List.filter_append, List.length_append]; omega

theorem addSegment_sum {minC q : F32} {acc : List (Key × F32) × ℕ} {r : Res} (hk : (r.all.map Prod.fst).Perm allKeys)
    (ha : acc.1.map Prod.fst = allKeys) (x : Window) : VoteSum minC [⟨x, r, q⟩] acc (addSegment minC q acc r) := by
  have hnd : (r.all.map Prod.fst).Nodup := hk.nodup_iff.2 (by decide)
  unfold addSegment
  split_ifs with hm
  · refine ⟨?_, by simp [hm]⟩
    dsimp only
    rw [fold_add _ _ _ hnd]
    apply List.map_congr_left
    intro p hp
    have hp' : p.1 ∈ r.all.map Prod.fst := hk.mem_iff.2 (by rw [← ha]; exact List.mem_map_of_mem hp)
    obtain ⟨p', hp'', e⟩ := List.mem_map.1 hp'
    rcases hf : r.all.find? (fun a => decide (a.1 = p.1)) with _ | b
    · exact absurd (List.find?_eq_none.1 hf p' hp'') (by simp [e])
    · simp [hm, scoreOf, hf]
  · exact ⟨by simp [hm], by simp [hm]⟩

theorem voteLoop_sum {det : List (List F32) → Option (List F32) → R Res}
    (hdet : ∀ c w r, det c w = .ok r → (r.all.map Prod.fst).Perm allKeys) {cs : List (List F32)} {w : Option (List F32)}
    {minC : F32} {len : ℕ} : ∀ (starts : List ℕ) (acc acc' : List (Key × F32) × ℕ), acc.1.map Prod.fst = allKeys →
      Analyze.segLoop det cs w minC len starts acc = .ok acc' →
      ∃ hs : List Heard, hs.map Heard.window = starts.map (fun s => ⟨s, len, 1⟩) ∧ (∀ x ∈ hs, HeardBy det cs w x) ∧
        VoteSum minC hs acc acc'
  | [], acc, acc', _, h => by
    rw [Analyze.segLoop] at h
    cases h
    exact ⟨[], rfl, by simp, by simp [VoteSum]⟩
  | s :: ss, acc, acc', ha, h => by
    rw [Analyze.segLoop] at h
    obtain ⟨seg, hseg, h⟩ := R.bind_eq_ok.1 h
    obtain ⟨_, rfl⟩ := slice_eq hseg
    have key : ∀ (wseg : Option (List F32)), wseg = (⟨s, len, 1⟩ : Window).weights w →
        (do
          let r ← det ((cs.drop s).take len) wseg
          let q ← keyClarity r.all
          Analyze.segLoop det cs w minC len ss (addSegment minC q acc r) : R _) = .ok acc' →
        ∃ hs : List Heard, hs.map Heard.window = (s :: ss).map (fun s => ⟨s, len, 1⟩) ∧ (∀ x ∈ hs, HeardBy det cs w x) ∧
          VoteSum minC hs acc acc' := by
      intro wseg hw h
      obtain ⟨r, hr, h⟩ := R.bind_eq_ok.1 h
      obtain ⟨q, hq, h⟩ := R.bind_eq_ok.1 h
      have hv : VoteSum minC [⟨⟨s, len, 1⟩, r, q⟩] acc (addSegment minC q acc r) := addSegment_sum (hdet _ _ _ hr) ha _
      have hk : (addSegment minC q acc r).1.map Prod.fst = allKeys := by
        rw [hv.1, List.map_map, ← ha]
        apply List.map_congr_left
        intro _ _
        rfl
      obtain ⟨hs, e1, e2, e3⟩ := voteLoop_sum hdet ss _ acc' hk h
      refine ⟨⟨⟨s, len, 1⟩, r, q⟩ :: hs, by simp [e1], ?_, hv.append e3⟩
      intro x hx
      rcases List.mem_cons.1 hx with rfl | hx
      · exact ⟨by rw [← hw]; exact hr, hq⟩
      · exact e2 x hx
    rcases w with _ | ws
    · dsimp only at h
      rw [R.pure_eq_ok, R.ok_bind] at h
      exact key none rfl h
    · dsimp only at h
      obtain ⟨wseg, hws, h⟩ := R.bind_eq_ok.1 h
      obtain ⟨hle, rfl⟩ := slice_eq hws
      rw [R.pure_eq_ok, R.ok_bind] at h
      exact key _ (by simp only [Window.weights]; rw [if_pos hle]) h

theorem voting_call {L : Lib} {c : Config} {cs : List (List F32)} {w : Option (List F32)} (hv : Voting c cs.length) :
    keyCall L c cs w = (do pure (some (← segVote L c cs w))) := by
  unfold keyCall
  rw [if_neg (by simp [hv.ensemble])]
  have h1 : multiScaleOn c cs.length = false := by unfold multiScaleOn; simp [hv.multi]
  have h2 : segOn c cs.length = true := by
    have := hv.len; have := hv.fits; have := hv.hop
    unfold segOn
    simp only [hv.on, Bool.true_and, Bool.and_eq_true, decide_eq_true_eq]
    refine ⟨⟨?_, hv.len⟩, hv.hop⟩
    show Nat.max c.segLen 1 ≤ _
    exact Nat.max_le.2 ⟨hv.fits, by omega⟩
  rw [if_neg (by simp [h1]), if_pos h2]

/-- **C91.** Where segments vote on the key, every window of the segment length that starts at a multiple of the hop is
heard, in order, each by an ordinary detection over its frames (and their weights).  Without a window as clear as
`key_segment_min_clarity` the answer is the detection over all frames.  Otherwise the clear windows vote: a key gets its
score of each window times the clarity of the window, the ranking is by votes, the reported key has the most votes, and
the confidence is the margin over the runner-up relative to the winner. -/
theorem C91_vote (L : Lib) (c : Config) (cs : List (List F32)) (w : Option (List F32)) (hv : Voting c cs.length) (r : Res)
    (h : keyCall L c cs w = .ok (some r)) :
    ∃ hs : List Heard, hs.map Heard.window = voteWindows c cs.length ∧ (∀ x ∈ hs, HeardBy (detect L c) cs w x) ∧
      let clear := hs.filter (fun x => decide (F32.clamp c.segClarity 0 1 ≤ x.clarity))
      (clear = [] → detect L c cs w = .ok r) ∧
      (clear ≠ [] →
        r.all.Pairwise (fun p q => q.2 ≤ p.2) ∧ (∀ k, ValidKey k → (k, votesFor clear k) ∈ r.all) ∧
        ValidKey r.key ∧ (∀ k, ValidKey k → votesFor clear k ≤ votesFor clear r.key) ∧
        ∃ k2, ValidKey k2 ∧ k2 ≠ r.key ∧ (∀ k, ValidKey k → k ≠ r.key → votesFor clear k ≤ votesFor clear k2) ∧
          r.conf = if 0 < votesFor clear r.key then
              F32.clamp ((votesFor clear r.key - votesFor clear k2) / votesFor clear r.key) 0 1
            else 0) := by
  rw [voting_call hv] at h
  obtain ⟨r', h', e⟩ := R.bind_eq_ok.1 h
  simp only [R.pure_eq_ok, Except.ok.injEq, Option.some.injEq] at e
  clear h
  subst e
  rename' h' => h
  have hfit := hv.fits
  have hlen := hv.len
  have hhop := hv.hop
  unfold segVote at h
  dsimp only at h
  obtain ⟨acc, h1, h⟩ := R.bind_eq_ok.1 h
  have hdet : ∀ c' w r, detect L c c' w = .ok r → (r.all.map Prod.fst).Perm allKeys := fun _ _ _ hr => detectWith_keys hr
  have hinit : ((allKeys.map (fun k => (k, (0 : F32))), 0) : List (Key × F32) × ℕ).1.map Prod.fst = allKeys := keys_init
  obtain ⟨hs, e1, e2, e3⟩ := voteLoop_sum hdet _ _ acc hinit h1
  have el : Nat.min c.segLen cs.length = c.segLen := Nat.min_eq_left hfit
  have eh : Nat.max (Nat.min c.segHop c.segLen) 1 = Nat.min c.segHop c.segLen := Nat.max_eq_left (by
    show 1 ≤ Nat.min c.segHop c.segLen
    exact Nat.le_min.2 ⟨hhop, by omega⟩)
  have hpos : 0 < Nat.min c.segHop c.segLen := Nat.lt_of_lt_of_le Nat.zero_lt_one (Nat.le_min.2 ⟨hhop, by omega⟩)
  refine ⟨hs, ?_, e2, ?_⟩
  · rw [e1, el, eh, segStarts_eq _ _ _ hpos]
    rfl
  · intro clear
    have hu : acc.2 = clear.length := by rw [e3.2]; simp [clear]
    have hvotes : acc.1 = allKeys.map (fun k => (k, votesFor clear k)) := by
      rw [e3.1, List.map_map]
      apply List.map_congr_left
      intro k _
      simp only [Function.comp]
      rw [foldl_map_sum]
      rfl
    split_ifs at h with hz
    · exact ⟨fun _ => h, fun hne => absurd (List.length_eq_zero_iff.1 (hu ▸ hz)) hne⟩
    · refine ⟨fun he => absurd (by rw [hu, he]; rfl) hz, fun _ => ?_⟩
      obtain ⟨scores, hsort, h⟩ := R.bind_eq_ok.1 h
      simp only [R.pure_eq_ok, Except.ok.injEq] at h
      subst h
      dsimp only
      unfold sortDescP at hsort
      split_ifs at hsort with hn
      cases hsort
      have hnan : ∀ a ∈ acc.1, a.2 ≠ nan := by
        intro a ha e
        have hl : 2 ≤ acc.1.length := by rw [hvotes, List.length_map]; decide
        unfold sortMeetsNaN at hn
        rw [decide_eq_true hl, Bool.true_and, List.any_eq_true] at hn
        exact hn ⟨a, ha, by rw [e]; rfl⟩
      have hp : (sortDesc Prod.snd acc.1).Perm acc.1 := sortDesc_perm _
      have hpw := sortDesc_pairwise (key := Prod.snd) hnan
      have hmem : ∀ k, ValidKey k → (k, votesFor clear k) ∈ sortDesc Prod.snd acc.1 := by
        intro k hk
        rw [hp.mem_iff, hvotes]
        exact List.mem_map.2 ⟨k, (validKey_iff k).1 hk, rfl⟩
      have hval : ∀ p ∈ sortDesc Prod.snd acc.1, ValidKey p.1 ∧ p.2 = votesFor clear p.1 := by
        intro p hp'
        rw [hp.mem_iff, hvotes] at hp'
        obtain ⟨k, hk, rfl⟩ := List.mem_map.1 hp'
        exact ⟨(validKey_iff k).2 hk, rfl⟩
      have hkeys : ((sortDesc Prod.snd acc.1).map Prod.fst).Nodup := by
        have : ((sortDesc Prod.snd acc.1).map Prod.fst).Perm allKeys := by
          refine (hp.map _).trans ?_
          rw [hvotes, List.map_map]
          exact List.Perm.of_eq (List.map_id _)
        exact this.nodup_iff.2 (by decide)
      have hl24 : (sortDesc Prod.snd acc.1).length = 24 := by
        rw [hp.length_eq, hvotes, List.length_map]; decide
      generalize sortDesc Prod.snd acc.1 = scores at hp hpw hmem hval hkeys hl24
      match scores, hl24 with
      | a :: b :: rest, _ =>
        have h0 : (a :: b :: rest).getD 0 (Key.major 0, (0 : F32)) = a := rfl
        have h1' : (a :: b :: rest).getD 1 (Key.major 0, (0 : F32)) = b := rfl
        rw [h0, h1']
        obtain ⟨va, ea⟩ := hval a (by simp)
        obtain ⟨vb, eb⟩ := hval b (by simp)
        have hpw' := hpw
        rw [List.pairwise_cons] at hpw
        obtain ⟨pa, pb⟩ := hpw
        rw [List.pairwise_cons] at pb
        have ha_nan : a.2 ≠ nan := by
          intro e
          exact hnan a (hp.mem_iff.1 (by simp)) e
        have hb_nan : b.2 ≠ nan := by
          intro e
          exact hnan b (hp.mem_iff.1 (by simp)) e
        refine ⟨hpw', hmem, va, ?_, b.1, vb, ?_, ?_, ?_⟩
        · intro k hk
          rw [← ea]
          rcases List.mem_cons.1 (hmem k hk) with e | hm
          · rw [show votesFor clear k = a.2 from congrArg Prod.snd e]; exact F32.le_refl ha_nan
          · exact pa _ hm
        · intro e
          rw [List.map_cons, List.map_cons, List.nodup_cons] at hkeys
          exact hkeys.1 (by rw [e]; simp)
        · intro k hk hne
          rw [← eb]
          rcases List.mem_cons.1 (hmem k hk) with e | hm
          · exact absurd (by rw [← e]) hne
          · rcases List.mem_cons.1 hm with e | hm
            · rw [show votesFor clear k = b.2 from congrArg Prod.snd e]; exact F32.le_refl hb_nan
            · exact pb.1 _ hm
        · rw [ea, eb]
          rfl

/-- **C92 (partial).** Every frame that has a whole hop of frames behind it lies in a window of the vote: at most the
last `hop - 1` frames are unheard.  The full claim, that every frame is heard, is false: `C92_violated`. -/
theorem C92_heard_partial (c : Config) (n : ℕ) (hv : Voting c n) (i : ℕ) (hi : i + Nat.min c.segHop c.segLen ≤ n) :
    ∃ x ∈ voteWindows c n, x.start ≤ i ∧ i < x.start + x.len := by
  have hfit := hv.fits
  have hlen := hv.len
  have hpos : 0 < Nat.min c.segHop c.segLen := Nat.lt_of_lt_of_le Nat.zero_lt_one (Nat.le_min.2 ⟨hv.hop, by omega⟩)
  have hle : Nat.min c.segHop c.segLen ≤ c.segLen := Nat.min_le_right _ _
  generalize hh : Nat.min c.segHop c.segLen = hop at hi hpos hle
  -- the largest start not above `i` that leaves room
  have hs : ∃ s, s % hop = 0 ∧ s + c.segLen ≤ n ∧ s ≤ i ∧ i < s + c.segLen := by
    by_cases h1 : i / hop * hop + c.segLen ≤ n
    · have := Nat.div_add_mod i hop
      have := Nat.mod_lt i hpos
      have e : hop * (i / hop) = i / hop * hop := Nat.mul_comm _ _
      exact ⟨i / hop * hop, Nat.mul_mod_left _ _, h1, by omega, by omega⟩
    · have h2 := Nat.div_add_mod (n - c.segLen) hop
      have h3 := Nat.mod_lt (n - c.segLen) hpos
      have e : hop * ((n - c.segLen) / hop) = (n - c.segLen) / hop * hop := Nat.mul_comm _ _
      have h4 := Nat.div_add_mod i hop
      have e' : hop * (i / hop) = i / hop * hop := Nat.mul_comm _ _
      exact ⟨(n - c.segLen) / hop * hop, Nat.mul_mod_left _ _, by omega, by omega, by omega⟩
  obtain ⟨s, h1, h2, h3, h4⟩ := hs
  refine ⟨⟨s, c.segLen, 1⟩, ?_, h3, h4⟩
  unfold voteWindows
  rw [hh]
  exact List.mem_map.2 ⟨s, List.mem_filter.2 ⟨List.mem_range.2 (by omega), by simp [h1, h2]⟩, rfl⟩

theorem slice_append {α} (l t : List α) (a len : ℕ) (h : a + len ≤ l.length) :
    slice (l ++ t) a (a + len) = slice l a (a + len) := by
  unfold slice
  rw [if_pos ⟨by omega, by rw [List.length_append]; omega⟩, if_pos ⟨by omega, h⟩]
  congr 1
  first
    | (rw [List.drop_append_of_le_length (by omega), List.take_append_of_le_length (by rw [List.length_drop]; omega)])
    | (rw [List.take_append_of_le_length (by omega)])

theorem voteLoop_append {det : List (List F32) → Option (List F32) → R Res} {head tail : List (List F32)} {w v : Option (List F32)}
    {minC : F32} {len : ℕ} (hw : ∀ s, s + len ≤ head.length → ∀ ws, w = some ws → ∃ vs, v = some vs ∧ slice ws s (s + len) = slice vs s (s + len))
    (hn : w = none → v = none) :
    ∀ (starts : List ℕ) (acc : List (Key × F32) × ℕ), (∀ s ∈ starts, s + len ≤ head.length) →
      Analyze.segLoop det (head ++ tail) w minC len starts acc = Analyze.segLoop det head v minC len starts acc
  | [], acc, _ => by rw [Analyze.segLoop, Analyze.segLoop]
  | s :: ss, acc, h => by
    have hs := h s (by simp)
    have ih := fun a => voteLoop_append (det := det) (tail := tail) (minC := minC) hw hn ss a (fun x hx => h x (by simp [hx]))
    rw [Analyze.segLoop, Analyze.segLoop, slice_append _ _ _ _ hs]
    simp only [ih]
    rcases w with _ | ws
    · rw [hn rfl]
    · obtain ⟨vs, rfl, e⟩ := hw s hs ws rfl
      dsimp only
      rw [e]

/-- the vote over `head ++ tail`, where the tail is too short for another window, is the vote over `head` -/
theorem vote_head {L : Lib} {c : Config} {head : List (List F32)} (hv : Voting c head.length)
    (hfull : (head.length - c.segLen) % Nat.min c.segHop c.segLen = 0) {w : Option (List F32)}
    (hw : ∀ ws, w = some ws → ws.length = head.length)
    (hc : ∃ x : Heard, x.window ∈ voteWindows c head.length ∧ HeardBy (detect L c) head w x ∧
      F32.clamp c.segClarity 0 1 ≤ x.clarity)
    (tail : List (List F32)) (ht : tail.length < Nat.min c.segHop c.segLen) (wt : List F32) :
    keyCall L c (head ++ tail) (w.map (· ++ wt)) = keyCall L c head w := by
  have hfit := hv.fits
  have hlen := hv.len
  have hpos : 0 < Nat.min c.segHop c.segLen := by omega
  have hv' : Voting c (head ++ tail).length := ⟨hv.ensemble, hv.multi, hv.on, hv.len, by rw [List.length_append]; omega, hv.hop⟩
  rw [voting_call hv', voting_call hv]
  have e1 : Nat.min c.segLen (head ++ tail).length = c.segLen := Nat.min_eq_left hv'.fits
  have e2 : Nat.min c.segLen head.length = c.segLen := Nat.min_eq_left hfit
  have e3 : Nat.max (Nat.min c.segHop c.segLen) 1 = Nat.min c.segHop c.segLen := Nat.max_eq_left hpos
  have est : segStarts (head ++ tail).length c.segLen (Nat.min c.segHop c.segLen) =
      segStarts head.length c.segLen (Nat.min c.segHop c.segLen) := by
    unfold segStarts
    rw [if_pos hv'.fits, if_pos hfit]
    have : ((head ++ tail).length - c.segLen) / Nat.min c.segHop c.segLen = (head.length - c.segLen) / Nat.min c.segHop c.segLen := by
      rw [List.length_append]
      generalize Nat.min c.segHop c.segLen = hop at hfull hpos ht
      obtain ⟨m, hm⟩ := Nat.dvd_of_mod_eq_zero hfull
      rw [show head.length + tail.length - c.segLen = tail.length + hop * m by omega, hm, Nat.add_mul_div_left _ _ hpos,
        Nat.div_eq_of_lt ht, Nat.mul_div_cancel_left _ hpos, Nat.zero_add]
    rw [this]
  have eloop : ∀ acc, Analyze.segLoop (detect L c) (head ++ tail) (w.map (· ++ wt)) (F32.clamp c.segClarity 0 1) c.segLen
      (segStarts head.length c.segLen (Nat.min c.segHop c.segLen)) acc =
      Analyze.segLoop (detect L c) head w (F32.clamp c.segClarity 0 1) c.segLen
      (segStarts head.length c.segLen (Nat.min c.segHop c.segLen)) acc := by
    intro acc
    refine voteLoop_append ?_ ?_ _ _ ?_
    · intro s hs ws e
      rcases w with _ | vs
      · cases e
      · simp only [Option.map_some, Option.some.injEq] at e
        refine ⟨vs, rfl, ?_⟩
        rw [← e, slice_append _ _ _ _ (by rw [hw vs rfl]; exact hs)]
    · intro e
      rcases w with _ | vs
      · rfl
      · cases e
    · intro s hs
      exact ((mem_segStarts hpos).1 hs).1
  unfold segVote
  dsimp only
  rw [e1, e2, e3, est, eloop]
  have hdet : ∀ c' w r, detect L c c' w = .ok r → (r.all.map Prod.fst).Perm allKeys := fun _ _ _ hr => detectWith_keys hr
  rcases hacc : Analyze.segLoop (detect L c) head w (F32.clamp c.segClarity 0 1) c.segLen
      (segStarts head.length c.segLen (Nat.min c.segHop c.segLen)) (allKeys.map (fun k => (k, 0)), 0) with e | acc
  · rfl
  · obtain ⟨hs, a1, a2, a3⟩ := voteLoop_sum hdet _ _ acc keys_init hacc
    have hne : acc.2 ≠ 0 := by
      obtain ⟨x, x1, ⟨x2, x3⟩, x4⟩ := hc
      have hx : x.window ∈ hs.map Heard.window := by
        rw [a1, segStarts_eq _ _ _ hpos]
        exact x1
      obtain ⟨y, hy, ey⟩ := List.mem_map.1 hx
      obtain ⟨y2, y3⟩ := a2 y hy
      rw [ey, x2, Except.ok.injEq] at y2
      rw [← y2, x3, Except.ok.injEq] at y3
      rw [y3] at x4
      rw [a3.2]
      have : y ∈ hs.filter (fun z => decide (F32.clamp c.segClarity 0 1 ≤ z.clarity)) :=
        List.mem_filter.2 ⟨hy, by simpa using x4⟩
      have := List.length_pos_of_mem this
      omega
    rw [R.ok_bind, R.ok_bind, if_neg hne, if_neg hne]

/-- **C92, violated.** Once some window of `head` is clear, the frames after the last full window have no influence on the
key at all: up to `hop - 1` frames at the end of the track (511 frames of 512 samples with the default settings, almost
six seconds at 44.1 kHz) can be replaced by any others, with any weights, and the key, its confidence and the whole
ranking stay the same. -/
theorem C92_violated (L : Lib) (c : Config) (head : List (List F32)) (hv : Voting c head.length)
    (hfull : (head.length - c.segLen) % Nat.min c.segHop c.segLen = 0) (w : Option (List F32))
    (hw : ∀ ws, w = some ws → ws.length = head.length)
    (hc : ∃ x : Heard, x.window ∈ voteWindows c head.length ∧ HeardBy (detect L c) head w x ∧
      F32.clamp c.segClarity 0 1 ≤ x.clarity)
    (tail tail' : List (List F32)) (ht : tail.length < Nat.min c.segHop c.segLen) (ht' : tail'.length < Nat.min c.segHop c.segLen)
    (wt wt' : List F32) :
    keyCall L c (head ++ tail) (w.map (· ++ wt)) = keyCall L c (head ++ tail') (w.map (· ++ wt')) := by
  rw [vote_head hv hfull hw hc tail ht, vote_head hv hfull hw hc tail' ht']

/-- 120 frames of a C major profile, of which only the first is loud, and settings with windows of 120 frames every 60 frames -/
def longC : List (List F32) := List.replicate 120 (krumhanslKessler.getMajor 0)
def longW : List F32 := 1 :: List.replicate 119 0
def voteConfig : Config := { enableMultiScale := false, segLen := 120, segHop := 60 }

theorem longC_clear : ∃ r q, detect quietLib voteConfig longC (some longW) = .ok r ∧ keyClarity r.all = .ok q ∧ (0.2 : F32) ≤ q := by
  have h : (match detect quietLib voteConfig longC (some longW) with
      | .ok r => (match keyClarity r.all with | .ok q => decide ((0.2 : F32) ≤ q) | _ => false)
      | _ => false) = true := by decide +kernel
  rcases hr : detect quietLib voteConfig longC (some longW) with e | r
  · rw [hr] at h; cases h
  · rw [hr] at h
    dsimp only at h
    rcases hq : keyClarity r.all with e | q
    · rw [hq] at h; cases h
    · rw [hq] at h
      exact ⟨r, q, rfl, hq, by simpa using h⟩

theorem longC_length : longC.length = 120 := by rw [longC, List.length_replicate]
theorem longW_length : longW.length = 120 := by rw [longW, List.length_cons, List.length_replicate]

theorem longC_voting : Voting voteConfig longC.length := by
  refine ⟨rfl, rfl, rfl, by decide, ?_, by decide⟩
  rw [longC_length]
  decide

theorem longC_heard : ∃ x : Heard, x.window ∈ voteWindows voteConfig longC.length ∧
    HeardBy (detect quietLib voteConfig) longC (some longW) x ∧ F32.clamp voteConfig.segClarity 0 1 ≤ x.clarity := by
  obtain ⟨r, q, h1, h2, h3⟩ := longC_clear
  refine ⟨⟨⟨0, 120, 1⟩, r, q⟩, ?_, ⟨?_, h2⟩, ?_⟩
  · rw [longC_length]
    exact List.mem_map.2 ⟨0, List.mem_filter.2 ⟨by decide, by decide⟩, rfl⟩
  · simp only [Window.weights, longW_length, List.drop_zero]
    rw [if_pos (by decide), List.take_of_length_le (by rw [longC_length]), List.take_of_length_le (by rw [longW_length]), h1]
  · rw [show F32.clamp voteConfig.segClarity 0 1 = (0.2 : F32) by decide +kernel]
    exact h3

-- the last 59 frames of this track can be anything, for example a loud modulation to F sharp major
example (tail : List (List F32)) (ht : tail.length < 60) (wt : List F32) :
    keyCall quietLib voteConfig (longC ++ tail) (some (longW ++ wt)) =
      keyCall quietLib voteConfig (longC ++ List.replicate 59 (krumhanslKessler.getMajor 6)) (some (longW ++ List.replicate 59 1000)) :=
  C92_violated quietLib voteConfig longC longC_voting (by rw [longC_length]; decide) (some longW)
    (by intro ws e; cases e; rw [longW_length, longC_length]) longC_heard tail _ ht (by rw [List.length_replicate]; decide) wt _

-- a vote with a clear window (C91)
example : ∃ r, keyCall quietLib voteConfig longC (some longW) = .ok (some r) ∧ ∃ hs : List Heard,
    (∃ x ∈ hs, (0.2 : F32) ≤ x.clarity) ∧ hs.map Heard.window = voteWindows voteConfig longC.length := by
  have hr : ∃ r, keyCall quietLib voteConfig longC (some longW) = .ok (some r) := by
    have h : (match segVote quietLib voteConfig longC (some longW) with | .ok _ => true | _ => false) = true := by decide +kernel
    rw [voting_call longC_voting]
    rcases hs : segVote quietLib voteConfig longC (some longW) with e | r
    · rw [hs] at h; cases h
    · exact ⟨r, rfl⟩
  obtain ⟨r, hr⟩ := hr
  obtain ⟨hs, h1, h2, _⟩ := C91_vote quietLib voteConfig longC (some longW) longC_voting r hr
  refine ⟨r, hr, hs, ?_, h1⟩
  obtain ⟨x, x1, ⟨x2, x3⟩, x4⟩ := longC_heard
  rw [← h1] at x1
  obtain ⟨y, hy, ey⟩ := List.mem_map.1 x1
  obtain ⟨y2, y3⟩ := h2 y hy
  rw [ey, x2, Except.ok.injEq] at y2
  rw [← y2, x3, Except.ok.injEq] at y3
  refine ⟨y, hy, ?_⟩
  rw [← y3]
  rw [show F32.clamp voteConfig.segClarity 0 1 = (0.2 : F32) by decide +kernel] at x4
  exact x4

-- windows at 0, 60 and 120 for 250 frames: the frames from 240 on are in none (C92)
example : (voteWindows voteConfig 250).map Window.start = [0, 60, 120] := by decide +kernel

end Verif.Props
