/-
C31: the path decoded by `viterbi_forward_pass` is optimal.
-/
import Verif.Model.Beat
import Verif.F32.Bounds

namespace Verif.Props
open Verif Verif.Beat F32

/-- A number that can be a probability. -/
def Prob (x : F32) : Prop := 0 ≤ x ∧ x ≤ 1

/-- One row of a matrix over the tempo states, all entries probabilities. -/
def ProbRow (r : List F32) : Prop := r.length = NS ∧ ∀ x ∈ r, Prob x

/-- A state sequence for `n` frames. -/
def IsPath (n : ℕ) (p : List ℕ) : Prop := p.length = n ∧ ∀ s ∈ p, s < NS

/-- Probability of continuing from state `s` (reached with probability `p`) along a path, multiplied left to
right in f32. -/
def pathFrom (trans : List (List F32)) : F32 → ℕ → List ℕ → List (List F32) → F32
  | p, s, s' :: path, em :: ems => pathFrom trans (p * (trans.getD s []).getD s' 0 * em.getD s' 0) s' path ems
  | p, _, _, _ => p

/-- Probability of a state sequence under a uniform initial distribution. -/
def pathProb (trans : List (List F32)) (em : List (List F32)) (path : List ℕ) : F32 :=
  match path, em with
  | s :: path, e :: ems => pathFrom trans ((1 / F32.ofNat NS) * e.getD s 0) s path ems
  | _, _ => 0

theorem Prob.mul {a b : F32} (ha : Prob a) (hb : Prob b) : Prob (a * b) := unit_mul ha.1 ha.2 hb.1 hb.2

theorem mul_mono_prob {a b c : F32} (ha : Prob a) (hb : Prob b) (hc : Prob c) (h : a ≤ b) : a * c ≤ b * c :=
  mul_le_mul_of_nonneg_right h hc.1 (ne_nan_left (ha.mul hc).2) (ne_nan_left (hb.mul hc).2)

theorem prob_getD {r : List F32} (h : ProbRow r) (i : ℕ) : Prob (r.getD i 0) := by
  rw [List.getD_eq_getElem?_getD]
  cases hi : r[i]? with
  | none => exact ⟨F32.le_refl (by decide +kernel), zero_le_one⟩
  | some x => exact h.2 x (List.mem_of_getElem? hi)

theorem prob_trans {t : List (List F32)} (h : ∀ r ∈ t, ProbRow r) (i j : ℕ) : Prob ((t.getD i []).getD j 0) := by
  rw [List.getD_eq_getElem?_getD (l := t)]
  cases hi : t[i]? with
  | none => exact ⟨F32.le_refl (by decide +kernel), zero_le_one⟩
  | some x => exact prob_getD (h x (List.mem_of_getElem? hi)) j

theorem pathFrom_mono {trans : List (List F32)} (ht : ∀ r ∈ trans, ProbRow r) {ems : List (List F32)}
    (he : ∀ r ∈ ems, ProbRow r) : ∀ (path : List ℕ) (s : ℕ) {p q : F32}, Prob p → Prob q → p ≤ q →
      pathFrom trans p s path ems ≤ pathFrom trans q s path ems := by
  induction ems with
  | nil => intro path s p q _ _ h; cases path <;> simpa [pathFrom] using h
  | cons em ems ih =>
    intro path s p q hp hq h
    cases path with
    | nil => simpa [pathFrom] using h
    | cons s' path =>
      simp only [pathFrom]
      have h1 := prob_trans ht s s'
      have h2 := prob_getD (he em (by simp)) s'
      apply ih (fun r hr => he r (by simp [hr]))
      · exact (hp.mul h1).mul h2
      · exact (hq.mul h1).mul h2
      · exact mul_mono_prob (hp.mul h1) (hq.mul h1) h2 (mul_mono_prob hp hq h1 h)

/-- first maximum of a non-negative function -/
theorem argmax0_spec {f : ℕ → F32} : ∀ {n : ℕ}, 0 < n → (∀ i < n, 0 ≤ f i) →
    (argmax0 f n).2 < n ∧ (argmax0 f n).1 = f (argmax0 f n).2 ∧ (∀ i < n, f i ≤ (argmax0 f n).1) ∧
    (∀ i < (argmax0 f n).2, f i < (argmax0 f n).1) := by
  have key : ∀ n, (∀ i < n, 0 ≤ f i) → 0 ≤ (argmax0 f n).1 ∧
      (∀ i < n, f i ≤ (argmax0 f n).1) ∧ (∀ i < (argmax0 f n).2, f i < (argmax0 f n).1) ∧
      ((argmax0 f n).1 = 0 ∧ (argmax0 f n).2 = 0 ∨
        (argmax0 f n).2 < n ∧ (argmax0 f n).1 = f (argmax0 f n).2) := by
    intro n
    induction n with
    | zero => intro _; exact ⟨F32.le_refl (by decide +kernel), by simp, by simp [argmax0], Or.inl ⟨rfl, rfl⟩⟩
    | succ n ih =>
      intro h
      obtain ⟨h0, h1, h2, h3⟩ := ih (fun i hi => h i (by omega))
      have e : argmax0 f (n + 1) = if (argmax0 f n).1 < f n then (f n, n) else argmax0 f n := by
        unfold argmax0; rw [List.range_succ, List.foldl_append]; rfl
      rw [e]
      have hn := h n (by omega)
      split_ifs with hlt
      · refine ⟨hn, ?_, ?_, Or.inr ⟨by simp, rfl⟩⟩
        · intro i hi
          rcases Nat.lt_succ_iff_lt_or_eq.1 hi with hi | rfl
          · exact le_trans (h1 i hi) (le_of_lt hlt)
          · exact F32.le_refl (ne_nan_right hn)
        · intro i hi; exact lt_of_le_of_lt (h1 i hi) hlt
      · refine ⟨h0, ?_, h2, ?_⟩
        · intro i hi
          rcases Nat.lt_succ_iff_lt_or_eq.1 hi with hi | rfl
          · exact h1 i hi
          · exact le_of_not_lt (ne_nan_right hn) (ne_nan_right h0) hlt
        · rcases h3 with h3 | h3
          · exact Or.inl h3
          · exact Or.inr ⟨by omega, h3.2⟩
  intro n hn h
  obtain ⟨h0, h1, h2, h3⟩ := key n h
  rcases h3 with ⟨h3, h4⟩ | ⟨h3, h4⟩
  · refine ⟨by omega, ?_, h1, h2⟩
    rw [h4]
    refine (le_antisymm (h1 0 hn) ?_).symm
    rw [h3]; exact h 0 hn
  · exact ⟨h3, h4, h1, h2⟩

theorem getD_map_range {α} (f : ℕ → α) (n i : ℕ) (d : α) (h : i < n) : ((List.range n).map f).getD i d = f i := by
  rw [List.getD_eq_getElem?_getD]
  simp [h]

theorem viterbiStep_spec {trans : List (List F32)} (ht : ∀ r ∈ trans, ProbRow r) {v em : List F32}
    (hv : ProbRow v) (he : ProbRow em) :
    ProbRow (viterbiStep trans v em).1 ∧ (viterbiStep trans v em).2.length = NS ∧
    ∀ s < NS, (viterbiStep trans v em).2.getD s 0 < NS ∧
      (viterbiStep trans v em).1.getD s 0 =
        v.getD ((viterbiStep trans v em).2.getD s 0) 0 *
          (trans.getD ((viterbiStep trans v em).2.getD s 0) []).getD s 0 * em.getD s 0 ∧
      ∀ p < NS, v.getD p 0 * (trans.getD p []).getD s 0 * em.getD s 0 ≤ (viterbiStep trans v em).1.getD s 0 := by
  have hpos : 0 < NS := by decide
  have hA : ∀ s, (argmax0 (fun p => v.getD p 0 * (trans.getD p []).getD s 0) NS).2 < NS ∧
      (argmax0 (fun p => v.getD p 0 * (trans.getD p []).getD s 0) NS).1 =
        v.getD (argmax0 (fun p => v.getD p 0 * (trans.getD p []).getD s 0) NS).2 0 *
          (trans.getD (argmax0 (fun p => v.getD p 0 * (trans.getD p []).getD s 0) NS).2 []).getD s 0 ∧
      (∀ i < NS, v.getD i 0 * (trans.getD i []).getD s 0 ≤
        (argmax0 (fun p => v.getD p 0 * (trans.getD p []).getD s 0) NS).1) := by
    intro s
    have := argmax0_spec (f := fun p => v.getD p 0 * (trans.getD p []).getD s 0) hpos
      (fun i _ => ((prob_getD hv i).mul (prob_trans ht i s)).1)
    exact ⟨this.1, this.2.1, this.2.2.1⟩
  have hP : ∀ s, Prob (argmax0 (fun p => v.getD p 0 * (trans.getD p []).getD s 0) NS).1 := by
    intro s; rw [(hA s).2.1]; exact (prob_getD hv _).mul (prob_trans ht _ s)
  have e1 : ∀ s < NS, (viterbiStep trans v em).1.getD s 0 =
      (argmax0 (fun p => v.getD p 0 * (trans.getD p []).getD s 0) NS).1 * em.getD s 0 := by
    intro s hs
    unfold viterbiStep
    dsimp only
    rw [getD_map_range _ _ _ _ hs, getD_map_range _ _ _ _ hs]
  have e2 : ∀ s < NS, (viterbiStep trans v em).2.getD s 0 =
      (argmax0 (fun p => v.getD p 0 * (trans.getD p []).getD s 0) NS).2 := by
    intro s hs
    unfold viterbiStep
    dsimp only
    rw [List.map_map, getD_map_range _ _ _ _ hs]; rfl
  refine ⟨⟨by simp [viterbiStep], ?_⟩, by simp [viterbiStep], ?_⟩
  · intro x hx
    obtain ⟨s, hs, rfl⟩ := List.getElem_of_mem hx
    have hs' : s < NS := by simpa [viterbiStep] using hs
    have := e1 s hs'
    rw [List.getD_eq_getElem?_getD, List.getElem?_eq_getElem hs, Option.getD_some] at this
    rw [this]
    exact (hP s).mul (prob_getD he s)
  · intro s hs
    rw [e1 s hs, e2 s hs]
    refine ⟨(hA s).1, by rw [← (hA s).2.1], ?_⟩
    intro p hp
    exact mul_mono_prob ((prob_getD hv p).mul (prob_trans ht p s)) (hP s) (prob_getD he s) ((hA s).2.2 p hp)

theorem viterbiRun_spec {trans : List (List F32)} (ht : ∀ r ∈ trans, ProbRow r) {ems : List (List F32)} :
    (∀ r ∈ ems, ProbRow r) → ∀ {v : List F32}, ProbRow v →
    ProbRow (viterbiRun trans v ems).1 ∧
    (∀ s < NS, ∀ path, IsPath ems.length path →
      pathFrom trans (v.getD s 0) s path ems ≤ (viterbiRun trans v ems).1.getD (path.getLastD s) 0) ∧
    (∀ final < NS, ∃ s path, backtrace (viterbiRun trans v ems).2 final = s :: path ∧ s < NS ∧
      IsPath ems.length path ∧ path.getLastD s = final ∧
      pathFrom trans (v.getD s 0) s path ems = (viterbiRun trans v ems).1.getD final 0) := by
  induction ems with
  | nil =>
    intro _ v hv
    refine ⟨hv, ?_, ?_⟩
    · rintro s hs path ⟨hl, _⟩
      obtain rfl := List.length_eq_zero_iff.1 hl
      exact F32.le_refl (ne_nan_left (prob_getD hv s).2)
    · intro final hf
      exact ⟨final, [], rfl, hf, ⟨rfl, by simp⟩, rfl, rfl⟩
  | cons em ems ih =>
    intro he v hv
    have hem := he em (by simp)
    have hems : ∀ r ∈ ems, ProbRow r := fun r hr => he r (by simp [hr])
    obtain ⟨s1, s2, s3⟩ := viterbiStep_spec ht hv hem
    obtain ⟨i1, i2, i3⟩ := ih hems s1
    have e1 : (viterbiRun trans v (em :: ems)).1 = (viterbiRun trans (viterbiStep trans v em).1 ems).1 := rfl
    have e2 : (viterbiRun trans v (em :: ems)).2 =
      (viterbiStep trans v em).2 :: (viterbiRun trans (viterbiStep trans v em).1 ems).2 := rfl
    rw [e1, e2]
    refine ⟨i1, ?_, ?_⟩
    · rintro s hs path ⟨hl, hb⟩
      cases path with
      | nil => simp at hl
      | cons s' path =>
        simp only [pathFrom, List.getLastD_cons]
        have hs' : s' < NS := hb s' (by simp)
        have hpath : IsPath ems.length path := ⟨by simpa using hl, fun x hx => hb x (by simp [hx])⟩
        refine le_trans (pathFrom_mono ht hems path s' ?_ ?_ ((s3 s' hs').2.2 s hs)) (i2 s' hs' path hpath)
        · exact ((prob_getD hv s).mul (prob_trans ht s s')).mul (prob_getD hem s')
        · exact prob_getD s1 s'
    · intro final hf
      obtain ⟨s', path, h1, h2, h3, h4, h5⟩ := i3 final hf
      refine ⟨(viterbiStep trans v em).2.getD s' 0, s' :: path, ?_, (s3 s' h2).1, ?_, ?_, ?_⟩
      · unfold backtrace at *
        rw [List.foldr_cons, h1]; rfl
      · exact ⟨by simp [h3.1], by intro x hx; rcases List.mem_cons.1 hx with rfl | hx; exacts [h2, h3.2 x hx]⟩
      · rw [List.getLastD_cons]; exact h4
      · simp only [pathFrom]
        rw [← (s3 s' h2).2.1]
        exact h5

/-- **C31**: for every transition matrix and every emission matrix of probabilities, of any length, the decoded
path is a state sequence of that length whose (left-to-right rounded) probability is maximal among all state
sequences; among the optimal ones its final state is the smallest. -/
theorem C31_viterbi_optimal (trans em : List (List F32)) (ht : ∀ r ∈ trans, ProbRow r)
    (he : ∀ r ∈ em, ProbRow r) (hne : em ≠ []) :
    ∃ path, viterbi trans em = .ok path ∧ IsPath em.length path ∧
      ∀ path', IsPath em.length path' →
        pathProb trans em path' ≤ pathProb trans em path ∧
        (pathProb trans em path' = pathProb trans em path → path.getLastD 0 ≤ path'.getLastD 0) := by
  cases em with
  | nil => exact absurd rfl hne
  | cons e0 ems =>
    have h0 := he e0 (by simp)
    have hpos : 0 < NS := by decide
    have hinit : ∀ s < NS, (viterbiInit e0).getD s 0 = (1 / F32.ofNat NS) * e0.getD s 0 := by
      intro s hs; exact getD_map_range _ _ _ _ hs
    have hfifth : Prob (1 / F32.ofNat NS) := by unfold Prob; decide +kernel
    have hv : ProbRow (viterbiInit e0) := by
      refine ⟨by simp [viterbiInit], ?_⟩
      intro x hx
      obtain ⟨s, hs, rfl⟩ := List.getElem_of_mem hx
      have hs' : s < NS := by simpa [viterbiInit] using hs
      have := hinit s hs'
      rw [List.getD_eq_getElem?_getD, List.getElem?_eq_getElem hs, Option.getD_some] at this
      rw [this]; exact hfifth.mul (prob_getD h0 s)
    obtain ⟨r1, r2, r3⟩ := viterbiRun_spec ht (fun r hr => he r (List.mem_cons_of_mem _ hr)) hv
    have hmax := argmax0_spec (f := fun s => (viterbiRun trans (viterbiInit e0) ems).1.getD s 0) hpos
      (fun i _ => (prob_getD r1 i).1)
    generalize hfin : argmax0 (fun s => (viterbiRun trans (viterbiInit e0) ems).1.getD s 0) NS = A at hmax
    obtain ⟨a1, a2, a3, a4⟩ := hmax
    obtain ⟨s, path, b1, b2, b3, b4, b5⟩ := r3 A.2 a1
    have hp : pathProb trans (e0 :: ems) (s :: path) = A.1 := by
      unfold pathProb
      dsimp only
      rw [← hinit s b2, b5, a2]
    refine ⟨s :: path, ?_, ⟨by simp [b3.1], ?_⟩, ?_⟩
    · unfold viterbi
      dsimp only
      rw [hfin, b1]
    · intro x hx
      rcases List.mem_cons.1 hx with rfl | hx
      exacts [b2, b3.2 x hx]
    · rintro path' ⟨hl, hb⟩
      cases path' with
      | nil => simp at hl
      | cons s' path' =>
        have hs' : s' < NS := hb s' (by simp)
        have hpath : IsPath ems.length path' := ⟨by simpa using hl, fun x hx => hb x (by simp [hx])⟩
        have hlast : path'.getLastD s' < NS := by
          cases path' with
          | nil => exact hs'
          | cons a l =>
            rw [List.getLastD_cons, List.getLastD_eq_getLast?]
            cases hq : l.getLast? with
            | none => exact hb a (by simp)
            | some y => exact hb y (by simp [List.mem_of_getLast? hq])
        have hub : pathProb trans (e0 :: ems) (s' :: path') ≤
            (viterbiRun trans (viterbiInit e0) ems).1.getD (path'.getLastD s') 0 := by
          unfold pathProb
          dsimp only
          rw [← hinit s' hs']
          exact r2 s' hs' path' hpath
        rw [hp]
        refine ⟨le_trans hub (a3 _ hlast), ?_⟩
        intro heq
        rw [List.getLastD_cons, List.getLastD_cons, b4]
        by_contra hlt
        push Not at hlt
        have := a4 _ hlt
        rw [heq] at hub
        exact not_lt_of_le hub this

/-- The tracker's own transition matrix is admissible, and a non-trivial decoding. -/
example : (∀ r ∈ transMatrix, ProbRow r) ∧
    viterbi transMatrix [[0.1, 0.2, 0.9, 0.2, 0.1], [0.1, 0.2, 0.3, 0.9, 0.1], [0, 0.1, 0.2, 0.9, 0.8]] = .ok [3, 3, 3] ∧
    viterbi transMatrix [[0, 0, 0, 0, 0], [0, 0, 0, 0, 0]] = .ok [0, 0] := by
  unfold ProbRow Prob
  decide +kernel

end Verif.Props
