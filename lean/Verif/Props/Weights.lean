/-
Property theorems C134: the weights of the onset methods rank the onsets but do not choose them, and only their ratios
matter (src/features/onset/consensus.rs).
-/
import Verif.Lemmas.Consensus
import Verif.Props.HalfTempo

namespace Verif.Props
open Verif Verif.Consensus Verif.F32

/-! ### Specification -/

/-- what a candidate says apart from its confidence: position, time and number of votes -/
def unranked (c : Candidate) : ℕ × F32 × ℕ := (c.timeSamples, c.timeSeconds, c.votedBy)

/-- all weights multiplied by `2^k` -/
def scaledWeights (k : ℕ) (w : ℕ → F32) : ℕ → F32 := fun i => w i * gainOf2 k

/-! ### Re-weighting -/

/-- the same onset with the weight of its method taken from `w` -/
def reweigh (w : ℕ → F32) (o : Tagged) : Tagged := { o with weight := w o.method }

theorem tagAll_reweigh (inp : Input) (w w' : ℕ → F32) : tagAll inp w' = (tagAll inp w).map (reweigh w') := by
  unfold tagAll reweigh
  simp [List.map_append, Function.comp_def]

theorem hits_reweigh (w : ℕ → F32) (tol : ℕ) (o : Tagged) : ∀ c, hits tol (reweigh w o) (c.map (reweigh w)) = hits tol o c
  | [] => rfl
  | e :: es => by
    rw [List.map_cons, hits, hits, hits_reweigh w tol o es]
    rfl

theorem addTo_reweigh (w : ℕ → F32) (tol : ℕ) (o : Tagged) : ∀ cs,
    addTo tol (reweigh w o) (cs.map (List.map (reweigh w))) = (addTo tol o cs).map (List.map (List.map (reweigh w)))
  | [] => rfl
  | c :: cs => by
    rw [List.map_cons, addTo, addTo, hits_reweigh, addTo_reweigh w tol o cs]
    cases hits tol o c with
    | error e => rfl
    | ok b =>
      cases b
      · cases addTo tol o cs <;> simp [Except.map]
      · simp [Except.map]

theorem clusterFrom_reweigh (w : ℕ → F32) (tol : ℕ) : ∀ os cs,
    clusterFrom tol (os.map (reweigh w)) (cs.map (List.map (reweigh w))) =
      (clusterFrom tol os cs).map (List.map (List.map (reweigh w)))
  | [], _ => rfl
  | o :: os, cs => by
    rw [List.map_cons, clusterFrom, clusterFrom, addTo_reweigh]
    cases addTo tol o cs with
    | error e => rfl
    | ok cs' =>
      simp only [Except.map, R.ok_bind]
      exact clusterFrom_reweigh w tol os cs'

/-- every cluster is made of the onsets given -/
theorem clusterFrom_mem {tol : ℕ} : ∀ {os : List Tagged} {cs cs' : List (List Tagged)}, clusterFrom tol os cs = .ok cs' →
    ∀ c ∈ cs', ∀ e ∈ c, e ∈ os ∨ ∃ c0 ∈ cs, e ∈ c0
  | [], cs, cs', h, c, hc, e, he => by
    cases h
    exact Or.inr ⟨c, hc, he⟩
  | o :: os, cs, cs', h, c, hc, e, he => by
    obtain ⟨cs1, h1, h⟩ := R.bind_eq_ok.1 h
    rcases clusterFrom_mem h c hc e he with h2 | ⟨c0, h2, h3⟩
    · exact Or.inl (by simp [h2])
    · rcases addTo_mem h1 c0 h2 e h3 with rfl | ⟨c1, h4, h5⟩
      · exact Or.inl (by simp)
      · exact Or.inr ⟨c1, h4, h5⟩

theorem addTo_length {tol : ℕ} {o : Tagged} : ∀ {cs cs' : List (List Tagged)}, addTo tol o cs = .ok cs' →
    (cs'.map List.length).sum = (cs.map List.length).sum + 1
  | [], cs', h => by cases h; rfl
  | c :: cs, cs', h => by
    obtain ⟨b, h1, h⟩ := R.bind_eq_ok.1 h
    cases b
    · simp only [Bool.false_eq_true, if_false] at h
      obtain ⟨r, h2, h⟩ := R.bind_eq_ok.1 h
      cases h
      have := addTo_length h2
      simp only [List.map_cons, List.sum_cons] at this ⊢
      omega
    · simp only [if_true] at h
      cases h
      simp only [List.map_cons, List.sum_cons, List.length_append, List.length_cons, List.length_nil]
      omega

theorem clusterFrom_length {tol : ℕ} : ∀ {os : List Tagged} {cs cs' : List (List Tagged)}, clusterFrom tol os cs = .ok cs' →
    (cs'.map List.length).sum = (cs.map List.length).sum + os.length
  | [], cs, cs', h => by cases h; rfl
  | o :: os, cs, cs', h => by
    obtain ⟨cs1, h1, h⟩ := R.bind_eq_ok.1 h
    have := clusterFrom_length h
    have := addTo_length h1
    rw [List.length_cons]; omega

theorem sorted_reweigh (w : ℕ → F32) (l : List Tagged) :
    rsort (fun a b : Tagged => decide (a.sample ≤ b.sample)) (l.map (reweigh w)) =
      (rsort (fun a b : Tagged => decide (a.sample ≤ b.sample)) l).map (reweigh w) :=
  rsort_map (reweigh w) (fun _ => True) (fun _ _ _ _ => rfl) l fun _ _ => trivial

theorem unranked_reweigh (w w' : ℕ → F32) (sr : ℕ) (c : List Tagged) :
    unranked (candidateOf w' sr (c.map (reweigh w'))) = unranked (candidateOf w sr c) := by
  unfold unranked candidateOf
  simp only [List.map_map, List.length_map, List.any_map]
  rfl

/-- **C134 (the weights do not choose).** With any other accepted weights the same onsets are reported, at the same
positions and times and with the same number of votes; only their confidence and their order may differ.  In particular
the onsets of a method with weight zero are reported. -/
theorem C134_choice (inp : Input) (w w' : ℕ → F32) (tol sr : ℕ) (l : List Candidate) (hw : ∀ i < 4, ¬ w' i < 0)
    (h : voteOnsets inp w tol sr = .ok l) :
    ∃ l', voteOnsets inp w' tol sr = .ok l' ∧ (l'.map unranked).Perm (l.map unranked) := by
  unfold voteOnsets at h ⊢
  split_ifs at h with h1 h2 h3
  rw [if_neg h1, if_neg h2, if_neg (by rintro (h | h | h | h) <;> exact hw _ (by norm_num) h)]
  dsimp only at h ⊢
  have he : tagAll inp w' = [] ↔ tagAll inp w = [] := by rw [tagAll_reweigh inp w w', List.map_eq_nil_iff]
  by_cases h4 : tagAll inp w = []
  · rw [if_pos h4] at h; cases h
    rw [if_pos (he.2 h4)]
    exact ⟨[], rfl, List.Perm.refl _⟩
  rw [if_neg h4] at h
  rw [if_neg fun h => h4 (he.1 h)]
  obtain ⟨cs, hc, h⟩ := R.bind_eq_ok.1 h
  cases h
  rw [tagAll_reweigh inp w w', sorted_reweigh]
  have := clusterFrom_reweigh w' (F32.ofNat tol / 1000 * F32.ofNat sr).toUsize
    (rsort (fun a b => decide (a.sample ≤ b.sample)) (tagAll inp w)) []
  rw [List.map_nil, hc] at this
  rw [this]
  refine ⟨_, rfl, ?_⟩
  refine ((sortDesc_perm _).map unranked).trans (List.Perm.trans ?_ ((sortDesc_perm _).map unranked).symm)
  rw [List.map_map, List.map_map, List.map_map]
  refine List.Perm.of_eq (List.map_congr_left fun c _ => ?_)
  exact unranked_reweigh w w' sr c

/-! ### Only the ratios matter -/

theorem foldl_weights (c : List Tagged) : c.foldl (fun acc o => acc + o.weight) 0 = F32.sum (c.map Tagged.weight) := by
  unfold F32.sum
  rw [List.foldl_map]

/-- **C134 (only the ratios count).** Multiplying all weights by the same power of two changes nothing at all: same
onsets, same confidences, same order. -/
theorem C134_ratio (inp : Input) (w : ℕ → F32) (tol sr k : ℕ) (hk : k ≤ 20) (hw : ∀ i < 4, 0 ≤ w i ∧ OrdinaryLevel (w i))
    (hn : (tagAll inp w).length ≤ 2 ^ 24) :
    voteOnsets inp (scaledWeights k w) tol sr = voteOnsets inp w tol sr := by
  have hkp := pow2_pos (k : ℤ)
  have hV : ∀ i < 4, Vol k (-40) 40 (w i) (scaledWeights k w i) := fun i hi => (ordinary_vol (hw i hi).2 hk).2 (hw i hi).1
  have hM : Vol k (-40) 64 (F32.sum [w 0, w 1, w 2, w 3])
      (F32.sum [scaledWeights k w 0, scaledWeights k w 1, scaledWeights k w 2, scaledWeights k w 3]) :=
    Vol.sum (.cons (hV 0 (by norm_num)) (.cons (hV 1 (by norm_num)) (.cons (hV 2 (by norm_num)) (.cons (hV 3 (by norm_num)) .nil))))
      (by norm_num) (by norm_num) (by norm_num) (by norm_num) (by norm_num)
  have hneg : ∀ i < 4, ¬ w i < 0 ∧ ¬ scaledWeights k w i < 0 := by
    intro i hi
    obtain ⟨v, hv, hv', e1, e2, v0, -⟩ := hV i hi
    rw [e1, e2, zero_def, fin_lt_fin, fin_lt_fin]
    exact ⟨by linarith, by nlinarith⟩
  unfold voteOnsets
  rw [if_neg (c := w 0 < 0 ∨ w 1 < 0 ∨ w 2 < 0 ∨ w 3 < 0) (by rintro (h | h | h | h) <;> exact (hneg _ (by norm_num)).1 h),
    if_neg (c := scaledWeights k w 0 < 0 ∨ scaledWeights k w 1 < 0 ∨ scaledWeights k w 2 < 0 ∨ scaledWeights k w 3 < 0)
      (by rintro (h | h | h | h) <;> exact (hneg _ (by norm_num)).2 h)]
  dsimp only
  split_ifs with h1 h2 h3 h4 h5
  · rfl
  · rfl
  · rfl
  · exact absurd (by rw [tagAll_reweigh inp (scaledWeights k w) w, h3]; rfl) h4
  · exact absurd (by rw [tagAll_reweigh inp w (scaledWeights k w), h5]; rfl) h3
  rw [tagAll_reweigh inp w (scaledWeights k w), sorted_reweigh]
  have := clusterFrom_reweigh (scaledWeights k w) (F32.ofNat tol / 1000 * F32.ofNat sr).toUsize
    (rsort (fun a b => decide (a.sample ≤ b.sample)) (tagAll inp w)) []
  rw [List.map_nil] at this
  rw [this]
  cases hc : clusterFrom (F32.ofNat tol / 1000 * F32.ofNat sr).toUsize (rsort (fun a b => decide (a.sample ≤ b.sample)) (tagAll inp w)) [] with
  | error e => rfl
  | ok cs =>
    show (Except.ok _ : R _) = Except.ok _
    congr 2
    rw [List.map_map]
    refine List.map_congr_left fun c hcc => ?_
    rw [Function.comp_apply]
    have hmem : ∀ e ∈ c, e.weight = w e.method ∧ e.method < 4 := by
      intro e he
      rcases clusterFrom_mem hc c hcc e he with h | ⟨c0, h, -⟩
      · rw [mem_rsort] at h
        unfold tagAll at h
        simp only [List.mem_append, List.mem_map] at h
        rcases h with ((⟨s, _, rfl⟩ | ⟨s, _, rfl⟩) | ⟨s, _, rfl⟩) | ⟨s, _, rfl⟩ <;> simp
      · cases h
    have hlen : c.length ≤ 2 ^ 24 := by
      have h6 := clusterFrom_length hc
      rw [(rsort_perm _).length_eq] at h6
      have h7 : c.length ≤ (cs.map List.length).sum := List.le_sum_of_mem (List.mem_map.2 ⟨c, hcc, rfl⟩)
      simp at h6; omega
    have hT : Vol k (-40) 64 (F32.sum (c.map Tagged.weight)) (F32.sum ((c.map (reweigh (scaledWeights k w))).map Tagged.weight)) := by
      refine Vol.sum (hi := 40) ?_ (by rw [List.length_map]; exact hlen) (by norm_num) (by norm_num) (by norm_num) (by norm_num)
      rw [List.map_map, List.forall₂_map_left_iff, List.forall₂_map_right_iff, List.forall₂_same]
      intro e he
      obtain ⟨e1, e2⟩ := hmem e he
      show Vol k (-40) 40 e.weight (scaledWeights k w e.method)
      rw [e1]
      exact hV _ e2
    have hu := unranked_reweigh w (scaledWeights k w) sr c
    have hconf : (candidateOf (scaledWeights k w) sr (c.map (reweigh (scaledWeights k w)))).confidence = (candidateOf w sr c).confidence := by
      unfold candidateOf
      dsimp only
      rw [foldl_weights, foldl_weights]
      have hpos : 0 < F32.sum [w 0, w 1, w 2, w 3] ↔
          0 < F32.sum [scaledWeights k w 0, scaledWeights k w 1, scaledWeights k w 2, scaledWeights k w 3] :=
        gain_lt hkp (vol_zero k (-40) 40).gain hM.gain
      by_cases hp : 0 < F32.sum [w 0, w 1, w 2, w 3]
      · rw [if_pos hp, if_pos (hpos.1 hp), gain_quotient hkp hT.gain hM.gain hp]
      · rw [if_neg hp, if_neg fun h => hp (hpos.2 h)]
    unfold unranked at hu
    generalize candidateOf (scaledWeights k w) sr (c.map (reweigh (scaledWeights k w))) = a at *
    generalize candidateOf w sr c = b at *
    cases a; cases b
    simp only [Prod.mk.injEq] at hu hconf
    obtain ⟨rfl, rfl, rfl⟩ := hu
    rw [hconf]

/-! ### Witnesses -/

/-- the weights of the documentation example -/
def docWeights : ℕ → F32 := fun i => if i < 2 then 0.3 else 0.2

example : (∀ i < 4, 0 ≤ docWeights i ∧ OrdinaryLevel (docWeights i)) ∧
    ∃ l, voteOnsets ⟨[1000, 5000], [1050], [980, 5020], [1020]⟩ docWeights 50 44100 = .ok l ∧ l.length = 2 := by
  refine ⟨by decide +kernel, ?_⟩
  have h : (match voteOnsets ⟨[1000, 5000], [1050], [980, 5020], [1020]⟩ docWeights 50 44100 with
    | .ok l => l.length | .error _ => 0) = 2 := by decide +kernel
  split at h
  · exact ⟨_, by assumption, h⟩
  · cases h

/-- a method of weight zero is heard all the same: its onset is reported, with confidence zero -/
example : voteOnsets ⟨[1000], [], [], [9000]⟩ (fun i => if i = 3 then 0 else 1) 50 1000 =
    .ok [⟨1000, 1, 1 / 3, 1⟩, ⟨9000, 9, 0, 1⟩] := by decide +kernel

end Verif.Props
