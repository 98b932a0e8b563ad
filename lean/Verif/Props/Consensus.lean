/-
Property theorems C11-C13: onset consensus voting (src/features/onset/consensus.rs).
-/
import Verif.Lemmas.Consensus
import Mathlib.Data.List.Dedup

namespace Verif.Props
open Verif Verif.Consensus Verif.F32

/-- Specification: all detections, as (position, method). -/
def Detections (inp : Input) : List (ℕ × ℕ) :=
  inp.energyFlux.map (·, 0) ++ inp.spectralFlux.map (·, 1) ++ inp.hfc.map (·, 2) ++ inp.hpss.map (·, 3)

/-- Specification: the tolerance in samples. -/
def TolSamples (ms sr : ℕ) : ℕ := (F32.ofNat ms / 1000 * F32.ofNat sr).toUsize

/-- Specification: a valid grouping of the detections at tolerance `tol`. -/
structure Grouping (tol : ℕ) (dets : List (ℕ × ℕ)) (groups : List (List (ℕ × ℕ))) : Prop where
  /-- nothing lost, nothing duplicated -/
  partition : groups.flatten.Perm dets
  nonempty : ∀ g ∈ groups, g ≠ []
  /-- inside a group one moves in steps of at most `tol` -/
  linked : ∀ g ∈ groups, g.IsChain (fun a b => a.1 ≤ b.1 ∧ b.1 ≤ a.1 + tol)
  /-- different groups are more than `tol` apart -/
  apart : groups.Pairwise (fun g h => ∀ a ∈ g, ∀ b ∈ h, a.1 + tol < b.1)
  /-- the detections are taken in order of position, then of method -/
  order : groups.flatten.Pairwise (fun a b => a.1 < b.1 ∨ (a.1 = b.1 ∧ a.2 ≤ b.2))

/-- Specification: candidate `c` summarises group `g`. -/
structure Summarises (w : ℕ → F32) (sr : ℕ) (g : List (ℕ × ℕ)) (c : Candidate) : Prop where
  mean : c.timeSamples = (g.map Prod.fst).sum / g.length
  inSpan : (∃ a ∈ g, a.1 ≤ c.timeSamples) ∧ (∃ b ∈ g, c.timeSamples ≤ b.1)
  seconds : c.timeSeconds = F32.ofNat c.timeSamples / F32.ofNat sr
  votes : c.votedBy = (g.map Prod.snd).dedup.length
  votes_range : 1 ≤ c.votedBy ∧ c.votedBy ≤ 4
  conf : (0 < F32.sum [w 0, w 1, w 2, w 3] →
      c.confidence = F32.clamp (F32.sum (g.map (fun d => w d.2)) / F32.sum [w 0, w 1, w 2, w 3]) 0 1) ∧
    (¬ 0 < F32.sum [w 0, w 1, w 2, w 3] → c.confidence = 0)

theorem mean_in_span {l : List ℕ} (h : l ≠ []) :
    (∃ a ∈ l, a ≤ l.sum / l.length) ∧ (∃ b ∈ l, l.sum / l.length ≤ b) := by
  have h0 := List.length_pos_iff.2 h
  have e := Nat.div_mul_le_self l.sum l.length
  have e2 := Nat.lt_div_mul_add (a := l.sum) h0
  constructor
  · by_contra hc
    push Not at hc
    have : l.length * (l.sum / l.length + 1) ≤ l.sum := by
      have := List.card_nsmul_le_sum l (l.sum / l.length + 1) (fun x hx => hc x hx)
      simpa using this
    rw [Nat.mul_add, Nat.mul_comm] at this
    omega
  · by_contra hc
    push Not at hc
    obtain ⟨x, xs, rfl⟩ := List.exists_cons_of_ne_nil h
    have hx := hc x (by simp)
    generalize (x :: xs).sum / (x :: xs).length = m at *
    have := List.sum_le_card_nsmul (x :: xs) (m - 1) (fun y hy => by have := hc y hy; omega)
    have this : (x :: xs).sum ≤ (x :: xs).length * (m - 1) := by simpa using this
    have h3 : (x :: xs).length * (m - 1) + (x :: xs).length = m * (x :: xs).length := by
      obtain ⟨k, rfl⟩ : ∃ k, m = k + 1 := ⟨m - 1, by omega⟩
      rw [Nat.add_sub_cancel]; ring
    omega

theorem voted_count {g : List ℕ} (h : ∀ m ∈ g, m < 4) :
    ((List.range 4).filter (fun m => g.contains m)).length = g.dedup.length := by
  apply List.Perm.length_eq
  rw [List.perm_ext_iff_of_nodup (List.Nodup.filter _ List.nodup_range) (List.nodup_dedup g)]
  intro a
  rw [List.mem_filter, List.mem_dedup, List.mem_range, List.contains_iff_mem]
  exact ⟨fun h' => h'.2, fun h' => ⟨h a h', h'⟩⟩

/-- The pair (position, method) of a tagged onset. -/
def pairOf (o : Tagged) : ℕ × ℕ := (o.sample, o.method)

theorem summarises_candidateOf {w : ℕ → F32} {sr : ℕ} {c : List Tagged} (h0 : c ≠ [])
    (hw : ∀ o ∈ c, o.weight = w o.method ∧ o.method < 4) :
    Summarises w sr (c.map pairOf) (candidateOf w sr c) := by
  have e1 : (c.map pairOf).map Prod.fst = c.map Tagged.sample := by simp [pairOf, Function.comp_def]
  have e2 : (c.map pairOf).map Prod.snd = c.map Tagged.method := by simp [pairOf, Function.comp_def]
  have hv : (candidateOf w sr c).votedBy = ((c.map pairOf).map Prod.snd).dedup.length := by
    rw [e2, ← voted_count]
    · unfold candidateOf
      dsimp only
      congr 2
      funext m
      rw [List.contains_eq_any_beq, List.any_map]
      congr 1
      funext o
      simp [Bool.beq_comm]
    · intro m hm
      obtain ⟨o, ho, rfl⟩ := List.mem_map.1 hm
      exact (hw o ho).2
  have hm : (candidateOf w sr c).timeSamples = ((c.map pairOf).map Prod.fst).sum / (c.map pairOf).length := by
    rw [e1, List.length_map]; rfl
  refine ⟨hm, ?_, rfl, hv, ?_, ?_⟩
  · have := mean_in_span (l := (c.map pairOf).map Prod.fst) (by simpa using h0)
    rw [List.length_map, ← hm] at this
    obtain ⟨⟨a, ha, h1⟩, ⟨b, hb, h2⟩⟩ := this
    obtain ⟨a', ha', rfl⟩ := List.mem_map.1 ha
    obtain ⟨b', hb', rfl⟩ := List.mem_map.1 hb
    exact ⟨⟨a', ha', h1⟩, ⟨b', hb', h2⟩⟩
  · constructor
    · rw [hv, Nat.one_le_iff_ne_zero, Ne, List.length_eq_zero_iff]
      obtain ⟨o, os, rfl⟩ := List.exists_cons_of_ne_nil h0
      intro hc
      have : o.method ∈ (((o :: os).map pairOf).map Prod.snd).dedup := by
        rw [List.mem_dedup]; simp [pairOf]
      rw [hc] at this; simp at this
    · have : (candidateOf w sr c).votedBy ≤ (List.range 4).length := List.length_filter_le _ _
      simpa using this
  · have ht : c.foldl (fun acc o => acc + o.weight) 0 = F32.sum ((c.map pairOf).map (fun d => w d.2)) := by
      unfold F32.sum
      rw [List.map_map, List.foldl_map]
      have : ∀ (l : List Tagged) (a : F32), (∀ o ∈ l, o.weight = w o.method ∧ o.method < 4) →
          l.foldl (fun acc o => acc + o.weight) a =
          l.foldl (fun x y => x + ((fun d => w d.2) ∘ pairOf) y) a := by
        intro l
        induction l with
        | nil => intro a _; rfl
        | cons o l ih =>
          intro a h
          rw [List.foldl_cons, List.foldl_cons, ih _ (fun x hx => h x (by simp [hx])), (h o (by simp)).1]
          rfl
      exact this c 0 hw
    constructor
    · intro h
      unfold candidateOf
      dsimp only
      rw [if_pos h, ht]
    · intro h
      unfold candidateOf
      dsimp only
      rw [if_neg h]

theorem tagAll_pairs (inp : Input) (w : ℕ → F32) : (tagAll inp w).map pairOf = Detections inp := by
  simp [tagAll, Detections, pairOf, Function.comp_def]

theorem tagAll_weight (inp : Input) (w : ℕ → F32) :
    ∀ o ∈ tagAll inp w, o.weight = w o.method ∧ o.method < 4 := by
  intro o ho
  simp only [tagAll, List.mem_append, List.mem_map] at ho
  rcases ho with ((⟨s, _, rfl⟩ | ⟨s, _, rfl⟩) | ⟨s, _, rfl⟩) | ⟨s, _, rfl⟩ <;> exact ⟨rfl, by simp⟩

theorem tagAll_methods (inp : Input) (w : ℕ → F32) : (tagAll inp w).Pairwise (fun a b => a.method ≤ b.method) := by
  have h : ∀ (l : List ℕ) (k : ℕ), (l.map (fun s => (⟨s, k, w k⟩ : Tagged))).Pairwise (fun a b => a.method ≤ b.method) := by
    intro l k
    rw [List.pairwise_map]
    exact List.pairwise_of_forall (fun _ _ => Nat.le_refl _)
  unfold tagAll
  simp only [List.pairwise_append, List.mem_append, List.mem_map]
  refine ⟨⟨⟨h _ 0, h _ 1, ?_⟩, h _ 2, ?_⟩, h _ 3, ?_⟩
  · rintro _ ⟨_, _, rfl⟩ _ ⟨_, _, rfl⟩; simp
  · rintro _ (⟨_, _, rfl⟩ | ⟨_, _, rfl⟩) _ ⟨_, _, rfl⟩ <;> simp
  · rintro _ ((⟨_, _, rfl⟩ | ⟨_, _, rfl⟩) | ⟨_, _, rfl⟩) _ ⟨_, _, rfl⟩ <;> simp

/-- The stable sort by position keeps the order of the methods among equal positions. -/
theorem sorted_lex {l : List Tagged} (h : l.Pairwise (fun a b => a.method ≤ b.method)) :
    (rsort (fun a b : Tagged => decide (a.sample ≤ b.sample)) l).Pairwise
      (fun a b => a.sample < b.sample ∨ (a.sample = b.sample ∧ a.method ≤ b.method)) := by
  induction l with
  | nil => exact List.Pairwise.nil
  | cons a l ih =>
    rw [List.pairwise_cons] at h
    have hm : ∀ b ∈ rsort (fun a b : Tagged => decide (a.sample ≤ b.sample)) l, a.method ≤ b.method :=
      fun b hb => h.1 b (mem_rsort.1 hb)
    have ih := ih h.2
    show (insertBy _ a (rsort _ l)).Pairwise _
    generalize rsort (fun a b : Tagged => decide (a.sample ≤ b.sample)) l = s at hm ih
    clear h
    induction s with
    | nil => exact List.pairwise_singleton _ _
    | cons b s ihs =>
      rw [List.pairwise_cons] at ih
      unfold insertBy
      split_ifs with hab
      · simp only [decide_eq_true_eq] at hab
        rw [List.pairwise_cons, List.pairwise_cons]
        refine ⟨fun c hc => ?_, ih⟩
        have h1 := hm c hc
        rcases List.mem_cons.1 hc with rfl | hc
        · omega
        · have := ih.1 c hc; omega
      · simp only [decide_eq_true_eq] at hab
        rw [List.pairwise_cons]
        refine ⟨fun c hc => ?_, ihs (fun c hc => hm c (List.mem_cons_of_mem _ hc)) ih.2⟩
        rcases List.mem_cons.1 ((insertBy_perm a s).mem_iff.1 hc) with rfl | hc
        · omega
        · exact ih.1 c hc

/-- **C11/C12.** For onset positions below `2^31`, voting returns an error exactly for a zero sample
rate, a zero tolerance or a negative weight, never panics, and otherwise the candidates correspond
one-to-one to the groups of a partition of all detections in which groups are linked by steps of at most
the tolerance and pairwise separated by more than the tolerance; each candidate's position is the
integer mean of its group, its vote count the number of distinct methods in the group, its confidence
the clamped share of the group's weights; and the list is a reordering of these. -/
theorem C11_partition (inp : Input) (w : ℕ → F32) (ms sr : ℕ) (hpos : ∀ d ∈ Detections inp, d.1 < 2 ^ 31) :
    ((sr = 0 ∨ ms = 0 ∨ (∃ m, m < 4 ∧ w m < 0)) → voteOnsets inp w ms sr = R.err .invalidInput) ∧
    (¬ (sr = 0 ∨ ms = 0 ∨ (∃ m, m < 4 ∧ w m < 0)) →
      ∃ cands groups ordered, voteOnsets inp w ms sr = .ok cands ∧
        Grouping (TolSamples ms sr) (Detections inp) groups ∧
        List.Forall₂ (Summarises w sr) groups ordered ∧ ordered.Perm cands) := by
  have hneg : (∃ m, m < 4 ∧ w m < 0) ↔ (w 0 < 0 ∨ w 1 < 0 ∨ w 2 < 0 ∨ w 3 < 0) := by
    constructor
    · rintro ⟨m, hm, h⟩
      have : m = 0 ∨ m = 1 ∨ m = 2 ∨ m = 3 := by omega
      rcases this with rfl | rfl | rfl | rfl <;> simp [h]
    · rintro (h | h | h | h)
      · exact ⟨0, by decide, h⟩
      · exact ⟨1, by decide, h⟩
      · exact ⟨2, by decide, h⟩
      · exact ⟨3, by decide, h⟩
  rw [hneg]
  unfold voteOnsets
  constructor
  · rintro (h | h | h)
    · rw [if_pos h]
    · split_ifs <;> rfl
    · split_ifs <;> rfl
  · intro h
    push Not at h
    obtain ⟨h1, h2, h3, h4, h5, h6⟩ := h
    rw [if_neg h1, if_neg h2, if_neg (by simp only [not_or]; exact ⟨h3, h4, h5, h6⟩)]
    dsimp only
    by_cases h0 : tagAll inp w = []
    · rw [if_pos h0]
      have hd : Detections inp = [] := by rw [← tagAll_pairs inp w, h0]; rfl
      refine ⟨[], [], [], rfl, ⟨by rw [hd]; simp, by simp, by simp, by simp, by simp⟩, List.Forall₂.nil, List.Perm.refl _⟩
    · rw [if_neg h0]
      have hperm := rsort_perm (le := fun a b : Tagged => decide (a.sample ≤ b.sample)) (tagAll inp w)
      have hsort := sorted_tagged (tagAll inp w)
      have hlex := sorted_lex (tagAll_methods inp w)
      generalize rsort (fun a b : Tagged => decide (a.sample ≤ b.sample)) (tagAll inp w) = s at hperm hsort hlex
      have hb : ∀ o ∈ s, o.sample < 2 ^ 31 := by
        intro o ho
        have : pairOf o ∈ Detections inp := by
          rw [← tagAll_pairs inp w]; exact List.mem_map.2 ⟨o, hperm.mem_iff.1 ho, rfl⟩
        exact hpos _ this
      obtain ⟨cs, e, hinv⟩ := clusterFrom_spec (tol := TolSamples ms sr) s [] [] (by simpa using hsort) hb
        ⟨rfl, by simp, by simp, by simp⟩
      have e' : clusterFrom (F32.ofNat ms / 1000 * F32.ofNat sr).toUsize s [] = .ok cs := e
      rw [e']
      simp only [R.ok_bind, List.nil_append] at hinv ⊢
      refine ⟨_, cs.map (List.map pairOf), cs.map (candidateOf w sr), rfl, ⟨?_, ?_, ?_, ?_, ?_⟩, ?_,
        (sortDesc_perm _).symm⟩
      · rw [← List.map_flatten, hinv.flat, ← tagAll_pairs inp w]
        exact hperm.map _
      · intro g hg
        obtain ⟨c, hc, rfl⟩ := List.mem_map.1 hg
        simpa using hinv.ne c hc
      · intro g hg
        obtain ⟨c, hc, rfl⟩ := List.mem_map.1 hg
        rw [List.isChain_map]
        exact hinv.chain c hc
      · rw [List.pairwise_map]
        refine hinv.sep.imp ?_
        intro c d hcd a ha b hb
        obtain ⟨a', ha', rfl⟩ := List.mem_map.1 ha
        obtain ⟨b', hb', rfl⟩ := List.mem_map.1 hb
        exact hcd a' ha' b' hb'
      · rw [← List.map_flatten, hinv.flat, List.pairwise_map]
        exact hlex
      · rw [List.forall₂_map_left_iff, List.forall₂_map_right_iff, List.forall₂_same]
        intro c hc
        apply summarises_candidateOf (hinv.ne c hc)
        intro o ho
        apply tagAll_weight inp w
        rw [← hperm.mem_iff, ← hinv.flat]
        exact List.mem_flatten.2 ⟨c, hc, ho⟩

theorem sum_weights_ne_nan {l : List F32} (h : ∀ x ∈ l, 0 ≤ x) : F32.sum l ≠ nan := ne_nan_right (sum_nonneg h)

/-- **C12 (partial).** Full claim also includes "confidence 1 means every method with positive weight
voted", which is false: `C12_violated`.  Proved: for finite non-negative weights with a finite sum, every
confidence is in [0,1], and candidates are ranked by non-increasing confidence.  (Vote counts: see
`C11_partition`, field `votes`.) -/
theorem C12_confidence_partial (inp : Input) (w : ℕ → F32) (ms sr : ℕ)
    (hpos : ∀ d ∈ Detections inp, d.1 < 2 ^ 31) (hw : ∀ m, m < 4 → w m ≠ nan)
    (hsum : (F32.sum [w 0, w 1, w 2, w 3]).isFinite = true) (cands : List Candidate)
    (h : voteOnsets inp w ms sr = .ok cands) :
    (∀ c ∈ cands, 0 ≤ c.confidence ∧ c.confidence ≤ 1) ∧
    cands.Pairwise (fun a b => b.confidence ≤ a.confidence) := by
  have hP := C11_partition inp w ms sr hpos
  by_cases hbad : sr = 0 ∨ ms = 0 ∨ (∃ m, m < 4 ∧ w m < 0)
  · rw [hP.1 hbad] at h; simp at h
  obtain ⟨cands', groups, ordered, e, hg, hf, hp⟩ := hP.2 hbad
  rw [h] at e
  obtain rfl := Except.ok.inj e
  push Not at hbad
  have hw0 : ∀ m, m < 4 → 0 ≤ w m := fun m hm => le_of_not_lt zero_ne_nan (hw m hm) (hbad.2.2 m hm)
  have hc01 : ∀ c ∈ cands, 0 ≤ c.confidence ∧ c.confidence ≤ 1 := by
    intro c hc
    obtain ⟨i, hi, hci⟩ := List.getElem_of_mem (hp.mem_iff.2 hc)
    have hi' : i < groups.length := by rw [hf.length_eq]; exact hi
    have hsm := List.Forall₂.get hf hi' hi
    simp only [List.get_eq_getElem, hci] at hsm
    by_cases h0 : 0 < F32.sum [w 0, w 1, w 2, w 3]
    · rw [hsm.conf.1 h0]
      apply clamp01
      have hs0 : 0 ≤ F32.sum (groups[i].map (fun d => w d.2)) := by
        apply sum_nonneg
        intro x hx
        obtain ⟨d, hd, rfl⟩ := List.mem_map.1 hx
        apply hw0
        have : d ∈ Detections inp := hg.partition.mem_iff.1 (List.mem_flatten.2 ⟨_, List.getElem_mem hi', hd⟩)
        simp only [Detections, List.mem_append, List.mem_map] at this
        rcases this with ((⟨s, _, rfl⟩ | ⟨s, _, rfl⟩) | ⟨s, _, rfl⟩) | ⟨s, _, rfl⟩ <;> simp
      obtain ⟨v, hv, ev⟩ := isFinite_iff.1 hsum
      rcases nonneg_cases hs0 with e' | ⟨u, hu, e', _⟩
      · rw [e', ev, inf_div_fin]; simp
      · rw [e']; exact div_fin_ne_nan rfl h0
    · rw [hsm.conf.2 h0]; exact ⟨le_refl zero_ne_nan, zero_le_one⟩
  refine ⟨hc01, ?_⟩
  unfold voteOnsets at h
  rw [if_neg hbad.1, if_neg hbad.2.1] at h
  split_ifs at h with h1
  dsimp only at h
  split_ifs at h with h2
  · obtain rfl := Except.ok.inj h; simp
  · obtain ⟨cs, hcs, h⟩ := R.bind_eq_ok.1 h
    obtain rfl := Except.ok.inj h
    exact sortDesc_pairwise (fun a ha => ne_nan_right (hc01 a (mem_sortDesc.2 ha)).1)

/-- **C12 is violated by the code**: weights are added per onset, not per method, so four onsets of one
method close together reach full confidence although the other three methods saw nothing. -/
theorem C12_violated : ∃ c, voteOnsets ⟨[1000, 1001, 1002, 1003], [], [], []⟩ (fun _ => 0.25) 50 44100 = .ok [c] ∧
    c.confidence = 1 ∧ c.votedBy = 1 := by
  refine ⟨⟨1001, F32.ofNat 1001 / F32.ofNat 44100, 1, 1⟩, ?_, rfl, rfl⟩
  decide +kernel

/-- **C12 is violated by the code** also for infinite weights, which are accepted: the confidence of the
candidate is NaN. -/
theorem C12_violated_infinite :
    ∃ c, voteOnsets ⟨[1000], [], [], []⟩ (fun _ => F32.inf false) 50 44100 = .ok [c] ∧ c.confidence = nan := by
  refine ⟨⟨1000, F32.ofNat 1000 / F32.ofNat 44100, nan, 1⟩, ?_, rfl⟩
  decide +kernel

/-- **C13 is violated by the code** for positions that differ by a multiple of `2^32`: onsets at samples 0
and `2^32` (27 hours apart at 44.1 kHz) are merged into one candidate half-way between them. -/
theorem C13_violated :
    ∃ c, voteOnsets ⟨[0, 2 ^ 32], [], [], []⟩ (fun _ => 0.25) 50 44100 = .ok [c] ∧ c.timeSamples = 2 ^ 31 := by
  refine ⟨⟨2 ^ 31, F32.ofNat (2 ^ 31) / F32.ofNat 44100, 0.5, 1⟩, ?_, rfl⟩
  decide +kernel

/-- **C13 is violated by the code** in a second way: a position with bit 31 set makes the `i32`
subtraction overflow, which panics in builds with overflow checks. -/
theorem C13_violated_panic :
    voteOnsets ⟨[100, 2 ^ 31], [], [], []⟩ (fun _ => 0.25) 50 44100 = R.panic := by decide +kernel

/-- Shift all onsets of the input. -/
def shiftInput (d : ℕ) (inp : Input) : Input :=
  ⟨inp.energyFlux.map (· + d), inp.spectralFlux.map (· + d), inp.hfc.map (· + d), inp.hpss.map (· + d)⟩

theorem candidateOf_shift {w : ℕ → F32} {sr d : ℕ} {c : List Tagged} (h : c ≠ []) :
    (candidateOf w sr (c.map (Tagged.shift d))).timeSamples = (candidateOf w sr c).timeSamples + d ∧
    (candidateOf w sr (c.map (Tagged.shift d))).confidence = (candidateOf w sr c).confidence ∧
    (candidateOf w sr (c.map (Tagged.shift d))).votedBy = (candidateOf w sr c).votedBy := by
  have h0 := List.length_pos_iff.2 h
  refine ⟨?_, ?_, ?_⟩
  · unfold candidateOf
    dsimp only
    have : ∀ l : List Tagged, ((l.map (Tagged.shift d)).map Tagged.sample).sum =
        (l.map Tagged.sample).sum + d * l.length := by
      intro l
      induction l with
      | nil => rfl
      | cons o l ih =>
        simp only [List.map_cons, List.sum_cons, List.length_cons, ih]
        show o.sample + d + _ = _
        ring
    rw [this, List.length_map, Nat.add_mul_div_right _ _ h0]
  · unfold candidateOf
    dsimp only
    have : ∀ (l : List Tagged) (a : F32), (l.map (Tagged.shift d)).foldl (fun acc o => acc + o.weight) a =
        l.foldl (fun acc o => acc + o.weight) a := by
      intro l
      induction l with
      | nil => intro a; rfl
      | cons o l ih => intro a; simp only [List.map_cons, List.foldl_cons, ih]; rfl
    rw [this]
  · unfold candidateOf
    dsimp only
    simp only [List.any_map, Function.comp_def]
    rfl

/-- **C13 (partial).** Full claim: shifting all onsets shifts the candidates and nothing else, at every
position.  Proved as long as all positions stay below `2^31` (about 13.5 hours at 44.1 kHz); beyond it is
false: `C13_violated`.  That onsets farther apart than the tolerance are never merged (unless linked by
others in between) is `C11_partition`. -/
theorem C13_shift_partial (inp : Input) (w : ℕ → F32) (ms sr d : ℕ)
    (hpos : ∀ x ∈ Detections inp, x.1 + d < 2 ^ 31) (cands : List Candidate)
    (h : voteOnsets inp w ms sr = .ok cands) :
    ∃ cands', voteOnsets (shiftInput d inp) w ms sr = .ok cands' ∧
      List.Forall₂ (fun c c' : Candidate => c'.timeSamples = c.timeSamples + d ∧ c'.confidence = c.confidence ∧
        c'.votedBy = c.votedBy) cands cands' := by
  have htag : tagAll (shiftInput d inp) w = (tagAll inp w).map (Tagged.shift d) := by
    simp [tagAll, shiftInput, Tagged.shift, Function.comp_def]
  have hP := C11_partition inp w ms sr (fun x hx => by have := hpos x hx; omega)
  unfold voteOnsets at h ⊢
  split_ifs at h ⊢ with h1 h2 h3
  dsimp only at h ⊢
  rw [htag]
  by_cases h0 : tagAll inp w = []
  · rw [if_pos h0] at h
    obtain rfl := Except.ok.inj h
    rw [if_pos (by simp [h0])]
    exact ⟨[], rfl, List.Forall₂.nil⟩
  · rw [if_neg h0] at h
    rw [if_neg (by simpa using h0)]
    have hb : ∀ o ∈ tagAll inp w, o.sample + d < 2 ^ 31 := by
      intro o ho
      have : pairOf o ∈ Detections inp := by
        rw [← tagAll_pairs inp w]; exact List.mem_map.2 ⟨o, ho, rfl⟩
      exact hpos _ this
    have hsort : rsort (fun a b : Tagged => decide (a.sample ≤ b.sample)) ((tagAll inp w).map (Tagged.shift d)) =
        (rsort (fun a b : Tagged => decide (a.sample ≤ b.sample)) (tagAll inp w)).map (Tagged.shift d) :=
      rsort_map _ (fun _ => True) (fun a b _ _ => by simp [Tagged.shift]) _ (by simp)
    rw [hsort]
    have hso := sorted_tagged (tagAll inp w)
    have hperm := rsort_perm (le := fun a b : Tagged => decide (a.sample ≤ b.sample)) (tagAll inp w)
    generalize rsort (fun a b : Tagged => decide (a.sample ≤ b.sample)) (tagAll inp w) = s at h hso hperm
    generalize (F32.ofNat ms / 1000 * F32.ofNat sr).toUsize = tol at h
    have hbs : ∀ o ∈ s, o.sample + d < 2 ^ 31 := fun o ho => hb o (hperm.mem_iff.1 ho)
    have hsh := clusterFrom_shift (tol := tol) (d := d) s [] hbs (by simp)
    obtain ⟨cs, hcs, h⟩ := R.bind_eq_ok.1 h
    obtain ⟨cs', e', hinv⟩ := clusterFrom_spec (tol := tol) s [] [] (by simpa using hso)
      (fun o ho => by have := hbs o ho; omega) ⟨rfl, by simp, by simp, by simp⟩
    rw [hcs] at e'
    obtain rfl := Except.ok.inj e'
    obtain rfl := Except.ok.inj h
    rw [hcs] at hsh
    simp only [List.map_nil, Except.map] at hsh
    rw [hsh]
    refine ⟨_, rfl, ?_⟩
    -- sort groups rather than candidates
    unfold sortDesc
    rw [List.map_map]
    rw [rsort_map (le := fun a b => decide (¬ (candidateOf w sr a).confidence < (candidateOf w sr b).confidence))
      (candidateOf w sr) (fun _ => True) (fun _ _ _ _ => rfl) cs (by simp)]
    rw [rsort_map (le := fun a b => decide (¬ (candidateOf w sr a).confidence < (candidateOf w sr b).confidence))
      (candidateOf w sr ∘ List.map (Tagged.shift d)) (fun c => c ≠ [])
      (fun a b ha hb => by
        rw [decide_eq_decide, Function.comp, Function.comp, (candidateOf_shift ha).2.1,
          (candidateOf_shift hb).2.1]) cs (fun c hc => hinv.ne c hc)]
    rw [List.forall₂_map_left_iff, List.forall₂_map_right_iff, List.forall₂_same]
    intro c hc
    rw [mem_rsort] at hc
    exact candidateOf_shift (hinv.ne c hc)

/-! Non-vacuity: three methods agree around sample 1000, one sees 5000. -/
example : (voteOnsets ⟨[1000, 5000], [1100], [], [900]⟩ (fun _ => 0.25) 50 44100).map
    (List.map (fun c => (c.timeSamples, c.confidence, c.votedBy))) = .ok [(1000, 0.75, 3), (5000, 0.25, 1)] := by
  decide +kernel
example : ∀ d ∈ Detections ⟨[1000, 5000], [1100], [], [900]⟩, d.1 + 44100 < 2 ^ 31 := by decide
example : (F32.sum [0.25, 0.25, 0.25, 0.25]).isFinite = true := by decide +kernel

end Verif.Props
