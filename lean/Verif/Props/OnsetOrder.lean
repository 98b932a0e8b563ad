/-
Property theorems C124: the order in which onsets are listed does not matter
(src/features/period/{mod,autocorrelation,comb_filter}.rs, src/features/onset/consensus.rs,
src/features/beat_tracking/mod.rs lines 134-136).
-/
import Verif.Props.Consensus
import Verif.Props.LegacyBpm
import Verif.Lemmas.Onset
import Verif.Lemmas.Beat

namespace Verif.Props
open Verif Verif.F32

/-- the two lists name the same positions (in any order, any number of times), and both or neither have two entries -/
structure SameOnsets (a b : List ℕ) : Prop where
  mem : ∀ x, x ∈ a ↔ x ∈ b
  two : 2 ≤ a.length ↔ 2 ≤ b.length

theorem SameOnsets.of_perm {a b : List ℕ} (h : a.Perm b) : SameOnsets a b :=
  ⟨fun _ => h.mem_iff, by rw [h.length_eq]⟩

theorem SameOnsets.nil_iff {a b : List ℕ} (h : SameOnsets a b) : a = [] ↔ b = [] := by
  rw [List.eq_nil_iff_forall_not_mem, List.eq_nil_iff_forall_not_mem]
  exact forall_congr' (fun x => not_congr (h.mem x))

section legacy
open Verif.Period

theorem foldl_max_le (l : List ℕ) (m k : ℕ) : l.foldl Nat.max m ≤ k ↔ m ≤ k ∧ ∀ x ∈ l, x ≤ k := by
  induction l generalizing m with
  | nil => simp
  | cons a l ih =>
    rw [List.foldl_cons, ih]
    have : Nat.max m a = max m a := rfl
    simp [this, and_assoc]

theorem foldl_max_same {a b : List ℕ} (h : ∀ x, x ∈ a ↔ x ∈ b) : a.foldl Nat.max 0 = b.foldl Nat.max 0 := by
  apply Nat.le_antisymm
  · rw [foldl_max_le]
    exact ⟨Nat.zero_le _, fun x hx => ((foldl_max_le b 0 _).1 (Nat.le_refl _)).2 x ((h x).1 hx)⟩
  · rw [foldl_max_le]
    exact ⟨Nat.zero_le _, fun x hx => ((foldl_max_le a 0 _).1 (Nat.le_refl _)).2 x ((h x).2 hx)⟩

theorem beatSignal_same {a b : List ℕ} (h : ∀ x, x ∈ a ↔ x ∈ b) (hop len : ℕ) : beatSignal a hop len = beatSignal b hop len := by
  have : ∀ k, (a.any (fun o => o / hop == k)) = b.any (fun o => o / hop == k) := by
    intro k
    rw [Bool.eq_iff_iff, List.any_eq_true, List.any_eq_true]
    exact exists_congr (fun x => and_congr (h x) Iff.rfl)
  unfold beatSignal
  simp only [this]

/-- the autocorrelation candidates depend on the set of positions only -/
theorem estAutocorr_same {a b : List ℕ} (h : SameOnsets a b) (ifft : List F32 → ℕ → F32) (sr hop : ℕ) (minB maxB : F32) :
    estAutocorr ifft a sr hop minB maxB = estAutocorr ifft b sr hop minB maxB := by
  unfold estAutocorr
  have h2 : a.length < 2 ↔ b.length < 2 := by have := h.two; omega
  simp only [h.nil_iff, h2, foldl_max_same h.mem, beatSignal_same h.mem]

/-- In a sorted list the scan finds the first of the closest onsets. -/
theorem nearest_sorted {o : ℕ} {os : List ℕ} (f : ℕ → ℕ) (hs : (o :: os).Pairwise (· ≤ ·)) :
    let r := os.foldl (fun best x => if f x < f best then x else best) o
    r ∈ o :: os ∧ (∀ x ∈ o :: os, f r ≤ f x) ∧ ∀ x ∈ o :: os, f x = f r → r ≤ x := by
  induction os generalizing o with
  | nil => simp
  | cons a os ih =>
    rw [List.pairwise_cons, List.pairwise_cons] at hs
    obtain ⟨h1, h2, h3⟩ := hs
    simp only [List.foldl_cons]
    by_cases hf : f a < f o
    · rw [if_pos hf]
      obtain ⟨m, mn, first⟩ := ih (List.pairwise_cons.2 ⟨h2, h3⟩)
      have ha := mn a (by simp)
      refine ⟨List.mem_cons_of_mem _ m, ?_, ?_⟩
      · intro x hx
        rcases List.mem_cons.1 hx with rfl | hx
        · omega
        · exact mn x hx
      · intro x hx he
        rcases List.mem_cons.1 hx with rfl | hx
        · omega
        · exact first x hx he
    · rw [if_neg hf]
      obtain ⟨m, mn, first⟩ := ih (List.pairwise_cons.2 ⟨fun x hx => h1 x (List.mem_cons_of_mem _ hx), h3⟩)
      have ho := mn o (by simp)
      refine ⟨?_, ?_, ?_⟩
      · rcases List.mem_cons.1 m with e | m
        · rw [e]; simp
        · exact List.mem_cons_of_mem _ (List.mem_cons_of_mem _ m)
      · intro x hx
        rcases List.mem_cons.1 hx with rfl | hx
        · exact ho
        rcases List.mem_cons.1 hx with rfl | hx
        · omega
        · exact mn x (List.mem_cons_of_mem _ hx)
      · intro x hx he
        rcases List.mem_cons.1 hx with rfl | hx
        · exact first x (by simp) he
        rcases List.mem_cons.1 hx with rfl | hx
        · exact Nat.le_trans (first o (by simp) (by omega)) (h1 x (by simp))
        · exact first x (List.mem_cons_of_mem _ hx) he

theorem nearest_same {a b : List ℕ} (h : ∀ x, x ∈ a ↔ x ∈ b) (ha : a.Pairwise (· ≤ ·)) (hb : b.Pairwise (· ≤ ·)) (beat : F32) :
    nearest a beat = nearest b beat := by
  cases a with
  | nil =>
    have : b = [] := List.eq_nil_iff_forall_not_mem.2 (fun x hx => by simpa using (h x).2 hx)
    rw [this]
  | cons o os =>
    cases b with
    | nil => exact absurd ((h o).1 (by simp)) (by simp)
    | cons p ps =>
      unfold nearest
      obtain ⟨m1, n1, f1⟩ := nearest_sorted (fun x => (F32.ofNat x - beat).abs.toUsize) ha
      obtain ⟨m2, n2, f2⟩ := nearest_sorted (fun x => (F32.ofNat x - beat).abs.toUsize) hb
      have e := Nat.le_antisymm (n1 _ ((h _).2 m2)) (n2 _ ((h _).1 m1))
      exact congrArg some (Nat.le_antisymm (f1 _ ((h _).2 m2) e.symm) (f2 _ ((h _).1 m1) e))

theorem getLast_same {a b : List ℕ} (h : ∀ x, x ∈ a ↔ x ∈ b) (ha : a.Pairwise (· ≤ ·)) (hb : b.Pairwise (· ≤ ·)) :
    a.getLast? = b.getLast? := by
  have key : ∀ {l : List ℕ}, l.Pairwise (· ≤ ·) → ∀ {x y}, l.getLast? = some x → y ∈ l → y ≤ x := by
    intro l hl x y hx hy
    obtain ⟨l', rfl⟩ := List.getLast?_eq_some_iff.1 hx
    rcases List.mem_append.1 hy with hy | hy
    · exact (List.pairwise_append.1 hl).2.2 y hy x (by simp)
    · simp at hy; omega
  cases ea : a.getLast? with
  | none =>
    rw [List.getLast?_eq_none_iff] at ea
    subst ea
    have : b = [] := List.eq_nil_iff_forall_not_mem.2 (fun x hx => by simpa using (h x).2 hx)
    rw [this]; rfl
  | some x =>
    cases eb : b.getLast? with
    | none =>
      rw [List.getLast?_eq_none_iff] at eb
      subst eb
      exact absurd ((h x).1 (List.mem_of_getLast? ea)) (by simp)
    | some y =>
      congr 1
      exact Nat.le_antisymm (key hb eb ((h x).1 (List.mem_of_getLast? ea))) (key ha ea ((h y).2 (List.mem_of_getLast? eb)))

theorem score_same {a b : List ℕ} (h : ∀ x, x ∈ a ↔ x ∈ b) (ha : a.Pairwise (· ≤ ·)) (hb : b.Pairwise (· ≤ ·)) (sr : ℕ)
    (bpm tol : F32) : score a sr bpm tol = score b sr bpm tol := by
  have hal : ∀ p t, aligned a p t = aligned b p t := by
    intro p t
    funext k
    unfold aligned
    dsimp only
    rw [nearest_same h ha hb]
  unfold score
  rw [getLast_same h ha hb]
  simp only [hal]

theorem combLoop_same {a b : List ℕ} (h : ∀ x, x ∈ a ↔ x ∈ b) (ha : a.Pairwise (· ≤ ·)) (hb : b.Pairwise (· ≤ ·)) (sr : ℕ)
    (maxB res : F32) (fuel : ℕ) (bpm : F32) : combLoop a sr maxB res fuel bpm = combLoop b sr maxB res fuel bpm := by
  induction fuel generalizing bpm with
  | zero => rfl
  | succ n ih => unfold combLoop; simp only [score_same h ha hb, ih]

/-- the comb-filter candidates depend on the set of positions only -/
theorem estComb_same {a b : List ℕ} (h : SameOnsets a b) (fuel sr : ℕ) (minB maxB res : F32) :
    estComb fuel a sr minB maxB res = estComb fuel b sr minB maxB res := by
  unfold estComb
  have h2 : a.length < 2 ↔ b.length < 2 := by have := h.two; omega
  have hc : combLoop (sortNat a) sr maxB res fuel minB = combLoop (sortNat b) sr maxB res fuel minB :=
    combLoop_same (fun x => by rw [mem_sortNat, mem_sortNat]; exact h.mem x) (sortNat_pairwise a) (sortNat_pairwise b) _ _ _ _ _
  simp only [h.nil_iff, h2, hc]

/-- **C124, tempo.** The legacy tempo estimate depends on the set of onset positions only: neither their order nor repeated
positions change the result, whatever it is (a tempo, no tempo, an error). -/
theorem C124_tempo (M : Libm) (ifft : List F32 → ℕ → F32) (fuel : ℕ) (a b : List ℕ) (h : SameOnsets a b) (sr hop : ℕ)
    (minB maxB res : F32) (guard : Option Guard) :
    estimateBpm M ifft fuel a sr hop minB maxB res guard = estimateBpm M ifft fuel b sr hop minB maxB res guard := by
  unfold estimateBpm
  rw [estAutocorr_same h, estComb_same h]

/-- the hypotheses, with a repeated position and another order; the comb filter does find candidates -/
example : SameOnsets [4, 0, 8, 4] [0, 4, 8] ∧ estComb 3 [4, 0, 8, 4] 4 60 62 1 ≠ .ok [] := by
  refine ⟨⟨fun x => ?_, by decide⟩, by decide +kernel⟩
  simp only [List.mem_cons, List.not_mem_nil]
  tauto

end legacy

section vote
open Verif.Consensus

/-- detections listed in another order, detector by detector -/
structure Reordered (a b : Input) : Prop where
  energy : a.energyFlux.Perm b.energyFlux
  spectral : a.spectralFlux.Perm b.spectralFlux
  hfc : a.hfc.Perm b.hfc
  hpss : a.hpss.Perm b.hpss

theorem tagAll_perm {a b : Input} (h : Reordered a b) (w : ℕ → F32) : (tagAll a w).Perm (tagAll b w) :=
  (((h.energy.map _).append (h.spectral.map _)).append (h.hfc.map _)).append (h.hpss.map _)

theorem sorted_same {a b : Input} (h : Reordered a b) (w : ℕ → F32) :
    rsort (fun a b : Tagged => decide (a.sample ≤ b.sample)) (tagAll a w) =
      rsort (fun a b : Tagged => decide (a.sample ≤ b.sample)) (tagAll b w) := by
  refine List.Perm.eq_of_pairwise (le := fun a b : Tagged => a.sample < b.sample ∨ (a.sample = b.sample ∧ a.method ≤ b.method))
    ?_ (sorted_lex (tagAll_methods a w)) (sorted_lex (tagAll_methods b w))
    (((rsort_perm _).trans (tagAll_perm h w)).trans (rsort_perm _).symm)
  intro x y hx hy h1 h2
  have e1 := tagAll_weight a w _ (mem_rsort.1 hx)
  have e2 := tagAll_weight b w _ (mem_rsort.1 hy)
  obtain ⟨xs, xm, xw⟩ := x
  obtain ⟨ys, ym, yw⟩ := y
  dsimp only at *
  obtain rfl : xs = ys := by omega
  obtain rfl : xm = ym := by omega
  rw [e1.1, e2.1]

/-- **C124, vote.** The consensus does not depend on the order in which each detector lists its onsets. -/
theorem C124_vote (a b : Input) (h : Reordered a b) (w : ℕ → F32) (ms sr : ℕ) :
    voteOnsets a w ms sr = voteOnsets b w ms sr := by
  unfold voteOnsets
  have hn : tagAll a w = [] ↔ tagAll b w = [] := by
    rw [← List.length_eq_zero_iff, ← List.length_eq_zero_iff, (tagAll_perm h w).length_eq]
  simp only [sorted_same h, hn]

example : Reordered ⟨[5, 1], [9, 2], [], [7]⟩ ⟨[1, 5], [2, 9], [], [7]⟩ ∧
    voteOnsets ⟨[5, 1], [9, 2], [], [7]⟩ (fun _ => 1) 1 1000 ≠ .ok [] :=
  ⟨⟨.swap _ _ _, .swap _ _ _, .refl _, .refl _⟩, by decide +kernel⟩

end vote

section grid
open Verif.Beat

theorem sortMeetsNaN_perm {a b : List F32} (h : a.Perm b) : sortMeetsNaN id a = sortMeetsNaN id b := by
  unfold sortMeetsNaN
  have h2 : a.any (fun x => (id x).isNaN) = b.any (fun x => (id x).isNaN) := by
    rw [Bool.eq_iff_iff, List.any_eq_true, List.any_eq_true]
    exact exists_congr (fun x => and_congr h.mem_iff Iff.rfl)
  rw [h.length_eq, h2]

theorem sortAscP_same {a b : List F32} (h : a.Perm b) : sortAscP id a = sortAscP id b := by
  unfold sortAscP
  rw [sortMeetsNaN_perm h]
  by_cases hn : sortMeetsNaN id b = true
  · rw [if_pos hn, if_pos hn]
  · rw [if_neg hn, if_neg hn]
    by_cases h2 : 2 ≤ a.length
    · congr 1
      refine Onset.sortAsc_eq_of_perm h (fun x hx hx' => hn ?_)
      rw [← sortMeetsNaN_perm h]
      unfold sortMeetsNaN
      rw [Bool.and_eq_true, List.any_eq_true]
      exact ⟨by simpa using h2, x, hx, isNaN_iff.2 hx'⟩
    · have : a = b := by
        match a, h, h2 with
        | [], h, _ => exact (List.nil_perm.1 h).symm
        | [x], h, _ => exact (List.singleton_perm.1 h)
        | x :: y :: l, _, h2 => simp at h2
      rw [this]

/-- **C124, beat grid.** The beat grid does not depend on the order of the onset times: it is documented to need them sorted,
but sorts them itself. -/
theorem C124_grid (M : Libm) (fuel : ℕ) (bpm conf : F32) (a b : List F32) (h : a.Perm b) :
    beatGrid M fuel bpm conf a = beatGrid M fuel bpm conf b := by
  unfold beatGrid
  have hn : a = [] ↔ b = [] := by
    rw [← List.length_eq_zero_iff, ← List.length_eq_zero_iff, h.length_eq]
  simp only [hn, sortAscP_same h]

example : [(1 : F32), 0.5, 1.5].Perm [0.5, 1, 1.5] ∧ (beatGrid Libm.demo 5 120 1 [1, 0.5, 1.5]).isOk = true :=
  ⟨.swap _ _ _, by decide +kernel⟩

end grid

end Verif.Props
