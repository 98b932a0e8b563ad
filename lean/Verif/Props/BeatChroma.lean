/-
Beat-synchronous chroma (C69) and chroma from log-frequency spectrograms (C70).
-/
import Verif.Props.ChromaMap

namespace Verif.Props
open Verif F32 Chroma

/-! ### Beat-synchronous chroma -/

/-- the time of spectrogram frame `i`, in seconds -/
def frameTime (sr hop i : ℕ) : F32 := F32.ofNat i * (F32.ofNat hop / F32.ofNat sr)

/-- the frames that start in `[s, e)` -/
def startingIn (sr hop n : ℕ) (s e : F32) : List ℕ :=
  (List.range n).filter (fun i => decide (s ≤ frameTime sr hop i) && decide (frameTime sr hop i < e))

theorem mem_startingIn {sr hop n i : ℕ} {s e : F32} :
    i ∈ startingIn sr hop n s e ↔ i < n ∧ s ≤ frameTime sr hop i ∧ frameTime sr hop i < e := by
  unfold startingIn
  simp [List.mem_filter]

theorem framesIn_eq (spec : List (List F32)) (sr hop : ℕ) (s e : F32) :
    framesIn spec sr hop s e = (startingIn sr hop spec.length s e).map (fun i => spec.getD i []) := by
  have hz : spec.zipIdx = (List.range spec.length).map (fun i => (spec.getD i [], i)) := by
    apply List.ext_getElem
    · simp
    · intro i h1 h2
      have hi : i < spec.length := by simpa using h1
      rw [List.getElem_zipIdx, List.getElem_map, List.getElem_range, List.getD_eq_getElem?_getD,
        List.getElem?_eq_getElem hi]
      simp
  unfold framesIn startingIn
  rw [hz, List.filter_map, List.map_map]
  rfl

theorem addVec_fold {cs : List (List F32)} (h : ∀ c ∈ cs, c.length = 12) : ∀ a : List F32, a.length = 12 →
    (cs.foldl addVec a).length = 12 ∧ ∀ j < 12, (cs.foldl addVec a).getD j 0 =
      (cs.map (fun c => c.getD j 0)).foldl (· + ·) (a.getD j 0) := by
  induction cs with
  | nil => intro a ha; exact ⟨ha, fun _ _ => rfl⟩
  | cons c cs ih =>
    intro a ha
    have hc := h c (by simp)
    have hl : (addVec a c).length = 12 := by unfold addVec; rw [List.length_zipWith, ha, hc]; rfl
    obtain ⟨h1, h2⟩ := ih (fun x hx => h x (by simp [hx])) (addVec a c) hl
    refine ⟨h1, fun j hj => ?_⟩
    rw [List.foldl_cons, h2 j hj, List.map_cons, List.foldl_cons]
    congr 1
    unfold addVec
    simp only [List.getD_eq_getElem?_getD]
    rw [List.getElem?_zipWith, List.getElem?_eq_getElem (by omega : j < a.length),
      List.getElem?_eq_getElem (by omega : j < c.length)]
    rfl

/-- the mean vector, column by column -/
def meanVec (chromas : List (List F32)) : List F32 :=
  (List.range 12).map (fun j => F32.sum (chromas.map (fun c => c.getD j 0)) / F32.ofNat chromas.length)

theorem mean_eq {cs : List (List F32)} (h : ∀ c ∈ cs, c.length = 12) :
    (cs.foldl addVec zero12).map (fun v => v / F32.ofNat cs.length) = meanVec cs := by
  obtain ⟨h1, h2⟩ := addVec_fold h zero12 rfl
  unfold meanVec
  apply List.ext_getElem
  · simp [h1]
  · intro j hj hj'
    have hj12 : j < 12 := by simpa using hj'
    rw [List.getElem_map, List.getElem_map, List.getElem_range]
    have := h2 j hj12
    rw [List.getD_eq_getElem?_getD, List.getElem?_eq_getElem (by omega)] at this
    rw [Option.getD_some] at this
    rw [this]
    congr 1
    unfold F32.sum
    congr 1
    unfold zero12
    rw [List.getD_eq_getElem?_getD, List.getElem?_replicate, if_pos hj12]
    rfl

theorem beatCell_val (M : Libm) (sr fft hop : ℕ) (soft : Bool) (sigma tuning : F32) (spec : List (List F32)) (s e : F32) :
    ∃ chromas : List (List F32), chromas.length = (startingIn sr hop spec.length s e).length ∧
      (∀ (t : ℕ) (i : ℕ) (c : List F32), (startingIn sr hop spec.length s e)[t]? = some i → chromas[t]? = some c →
        frameToChroma M sr fft soft sigma tuning (spec.getD i []) = .ok c ∧ c.length = 12) ∧
      beatCell M sr fft hop soft sigma tuning spec s e = .ok
        (if startingIn sr hop spec.length s e = [] then (List.replicate 12 0, 0)
         else (unitOrKeep (meanVec chromas),
           F32.sum ((startingIn sr hop spec.length s e).map (fun i => energy (spec.getD i []))))) := by
  obtain ⟨cs, e1, hl, hp⟩ := mapM_frames M sr fft soft sigma tuning (framesIn spec sr hop s e)
  rw [framesIn_eq] at e1 hl hp
  rw [List.length_map] at hl
  have hp' : ∀ (t : ℕ) (i : ℕ) (c : List F32), (startingIn sr hop spec.length s e)[t]? = some i → cs[t]? = some c →
        frameToChroma M sr fft soft sigma tuning (spec.getD i []) = .ok c ∧ c.length = 12 := by
    intro t i c h1 h2
    exact hp t _ c (by rw [List.getElem?_map, h1]; rfl) h2
  refine ⟨cs, hl, hp', ?_⟩
  have h12 : ∀ c ∈ cs, c.length = 12 := by
    intro c hc
    obtain ⟨t, ht, rfl⟩ := List.mem_iff_getElem.1 hc
    have ht' : t < (startingIn sr hop spec.length s e).length := by omega
    exact (hp' t _ _ (List.getElem?_eq_getElem ht') (List.getElem?_eq_getElem ht)).2
  unfold beatCell
  dsimp only
  rw [framesIn_eq, e1]
  simp only [R.ok_bind]
  by_cases hE : startingIn sr hop spec.length s e = []
  · have : cs = [] := by rw [hE] at hl; simpa using hl
    rw [if_neg (by simp [this]), if_pos hE]
    rfl
  · have : cs ≠ [] := by intro h; rw [h] at hl; exact hE (List.eq_nil_of_length_eq_zero hl.symm)
    rw [if_pos this, if_neg hE, mean_eq h12, List.map_map]
    rfl

/-- **C69: beat-synchronous chroma.** For a non-empty spectrogram and at least one beat the call succeeds with
one twelve-entry vector and one energy per pair of consecutive beats.  Interval `k` depends exactly on the
frames that start in `[beats[k], beats[k+1])`: without such frames the vector and the energy are zero,
otherwise the vector is the normalised column-wise mean of the chroma vectors of these frames and the
energy is the sum of their energies.  No assumption on the values or on the mathematical library. -/
theorem C69_intervals (M : Libm) (sr fft hop : ℕ) (soft : Bool) (sigma tuning : F32) (spec : List (List F32))
    (beats : List F32) (hs : spec ≠ []) (hb : beats ≠ []) :
    ∃ cs es, beatChroma M sr fft hop soft sigma tuning spec beats = .ok (cs, es) ∧
      cs.length = beats.length - 1 ∧ es.length = beats.length - 1 ∧ (∀ c ∈ cs, c.length = 12) ∧
      ∀ k, (hk : k + 1 < beats.length) → ∃ chromas : List (List F32),
        chromas.length = (startingIn sr hop spec.length beats[k] beats[k + 1]).length ∧
        (∀ (t : ℕ) (i : ℕ) (c : List F32), (startingIn sr hop spec.length beats[k] beats[k + 1])[t]? = some i →
          chromas[t]? = some c → frameToChroma M sr fft soft sigma tuning (spec.getD i []) = .ok c) ∧
        (startingIn sr hop spec.length beats[k] beats[k + 1] = [] →
          cs[k]? = some (List.replicate 12 0) ∧ es[k]? = some 0) ∧
        (startingIn sr hop spec.length beats[k] beats[k + 1] ≠ [] →
          cs[k]? = some (unitOrKeep (meanVec chromas)) ∧
          es[k]? = some (F32.sum ((startingIn sr hop spec.length beats[k] beats[k + 1]).map
            (fun i => energy (spec.getD i []))))) := by
  have hcell := fun p : F32 × F32 => beatCell_val M sr fft hop soft sigma tuning spec p.1 p.2
  choose ch h1 h2 h3 using hcell
  have hm := Silence.mapM_ok (l := beats.zip beats.tail) (fun x _ => h3 x)
  have e : ∀ G : List (List F32 × F32), (beats.zip beats.tail).mapM
      (fun p => beatCell M sr fft hop soft sigma tuning spec p.1 p.2) = .ok G →
      beatChroma M sr fft hop soft sigma tuning spec beats = .ok (G.map (·.1), G.map (·.2)) := by
    intro G hG
    unfold beatChroma
    rw [if_neg hs, if_neg hb, hG]
    rfl
  refine ⟨_, _, e _ hm, ?_, ?_, ?_, ?_⟩
  · simp
  · simp
  · intro c hc
    simp only [List.map_map, List.mem_map] at hc
    obtain ⟨p, -, rfl⟩ := hc
    simp only [Function.comp]
    split_ifs
    · simp
    · rw [length_unitOrKeep]; simp [meanVec]
  · intro k hk
    have hz : (beats.zip beats.tail)[k]? = some (beats[k], beats[k + 1]) := by
      rw [List.getElem?_zip_eq_some]
      exact ⟨List.getElem?_eq_getElem (by omega), by
        rw [List.getElem?_tail]; exact List.getElem?_eq_getElem hk⟩
    refine ⟨ch (beats[k], beats[k + 1]), h1 _, fun t i c a b => (h2 (beats[k], beats[k + 1]) t i c a b).1, ?_, ?_⟩
    · intro hE
      simp only [List.getElem?_map, hz, Option.map_some, if_pos hE, and_self]
    · intro hE
      simp only [List.getElem?_map, hz, Option.map_some, if_neg hE, and_self]

/-- three frames at 0, 1 and 2 s; beats at 0, 2, 2.5 and 3 s -/
example : startingIn 1000 1000 3 0 2 = [0, 1] ∧ startingIn 1000 1000 3 2 2.5 = [2] ∧ startingIn 1000 1000 3 2.5 3 = [] := by
  decide +kernel

/-- **C69**: an empty spectrogram gives an empty answer, an empty beat list an error. -/
theorem C69_empty (M : Libm) (sr fft hop : ℕ) (soft : Bool) (sigma tuning : F32) (spec : List (List F32)) (beats : List F32) :
    beatChroma M sr fft hop soft sigma tuning [] beats = .ok ([], []) ∧
    (spec ≠ [] → beatChroma M sr fft hop soft sigma tuning spec [] = R.err .invalidInput) :=
  ⟨rfl, fun h => by unfold beatChroma; rw [if_neg h]; rfl⟩

/-- **C69, no frame is counted twice or lost**: for beats in non-decreasing order every frame starts in at most one
interval, and in exactly one when it starts at or after the first beat and before the last. -/
theorem C69_partition (sr hop n : ℕ) (beats : List F32) (hsort : ∀ i j, (hi : i < beats.length) → (hj : j < beats.length) →
      i ≤ j → beats[i] ≤ beats[j]) (f : ℕ) :
    (∀ j k, (hj : j + 1 < beats.length) → (hk : k + 1 < beats.length) →
      f ∈ startingIn sr hop n beats[j] beats[j + 1] → f ∈ startingIn sr hop n beats[k] beats[k + 1] → j = k) ∧
    (f < n → (h0 : 0 < beats.length) → beats[0] ≤ frameTime sr hop f →
      frameTime sr hop f < beats[beats.length - 1] →
      ∃ k, ∃ hk : k + 1 < beats.length, f ∈ startingIn sr hop n beats[k] beats[k + 1]) := by
  constructor
  · have key : ∀ j k, (hj : j + 1 < beats.length) → (hk : k + 1 < beats.length) → j < k →
        f ∈ startingIn sr hop n beats[j] beats[j + 1] → f ∈ startingIn sr hop n beats[k] beats[k + 1] → False := by
      intro j k hj hk hjk h1 h2
      rw [mem_startingIn] at h1 h2
      have := hsort (j + 1) k hj (by omega) (by omega)
      exact F32.lt_irrefl _ (F32.lt_of_lt_of_le h1.2.2 (F32.le_trans this h2.2.1))
    intro j k hj hk h1 h2
    rcases Nat.lt_trichotomy j k with h | h | h
    · exact (key j k hj hk h h1 h2).elim
    · exact h
    · exact (key k j hk hj h h2 h1).elim
  · intro hf h0 hlo hhi
    -- the last beat at or before the frame
    have : ∀ m, (hm : m < beats.length) → frameTime sr hop f < beats[m] →
        ∃ k, ∃ hk : k + 1 < beats.length, beats[k] ≤ frameTime sr hop f ∧ frameTime sr hop f < beats[k + 1] := by
      intro m
      induction m with
      | zero => intro hm h; exact absurd (F32.lt_of_le_of_lt hlo h) (F32.lt_irrefl _)
      | succ m ih =>
        intro hm h
        by_cases hc : frameTime sr hop f < beats[m]
        · exact ih (by omega) hc
        · refine ⟨m, hm, F32.le_of_not_lt ?_ (ne_nan_right hlo) hc, h⟩
          exact ne_nan_left (hsort m m (by omega) (by omega) (Nat.le_refl m))
    obtain ⟨k, hk, a, b⟩ := this _ (by omega) hhi
    exact ⟨k, hk, mem_startingIn.2 ⟨hf, a, b⟩⟩

example : ∀ i j, (hi : i < [(0 : F32), 2, 2.5, 3].length) → (hj : j < [(0 : F32), 2, 2.5, 3].length) →
    i ≤ j → [(0 : F32), 2, 2.5, 3][i] ≤ [(0 : F32), 2, 2.5, 3][j] := by
  have h : ∀ i j : Fin 4, i ≤ j → [(0 : F32), 2, 2.5, 3].get i ≤ [(0 : F32), 2, 2.5, 3].get j := by decide +kernel
  exact fun i j hi hj hij => h ⟨i, hi⟩ ⟨j, hj⟩ hij

theorem meanVec_mags {cs : List (List F32)} (hne : cs ≠ []) (hl : cs.length ≤ 2 ^ 64)
    (h : ∀ c ∈ cs, c.length = 12 ∧ ∀ y ∈ c, 0 ≤ y ∧ y ≤ 1) : Mags (meanVec cs) := by
  intro x hx
  unfold meanVec at hx
  obtain ⟨j, hj, rfl⟩ := List.mem_map.1 hx
  have hj12 : j < 12 := by simpa using hj
  have hent : ∀ y ∈ cs.map (fun c => c.getD j 0), 0 ≤ y ∧ y ≤ rnd (pow2 101) := by
    intro y hy
    obtain ⟨c, hc, rfl⟩ := List.mem_map.1 hy
    obtain ⟨a, b⟩ := h c hc
    obtain ⟨p, q⟩ := b _ (getD_mem' (by omega : j < c.length))
    exact ⟨p, F32.le_trans q (by decide +kernel)⟩
  have s0 : 0 ≤ F32.sum (cs.map (fun c => c.getD j 0)) := sum_nonneg (fun y hy => (hent y hy).1)
  have s1 : F32.sum (cs.map (fun c => c.getD j 0)) ≤ rnd (pow2 126) :=
    sum_sat_aux hent 0 (by decide +kernel) (by decide +kernel)
  have hpos : 0 < cs.length := List.length_pos_iff.2 hne
  have n1 := one_le_ofNat hpos
  have nf := ofNat_finite (hl.trans (by norm_num : (2 ^ 64 : ℕ) ≤ 2 ^ 127))
  generalize F32.sum (cs.map (fun c => c.getD j 0)) = s at s0 s1 ⊢
  generalize F32.ofNat cs.length = w at n1 nf ⊢
  obtain ⟨g, eg⟩ : ∃ h, rnd (pow2 126) = fin (pow2 126) h := ⟨by decide +kernel, by decide +kernel⟩
  rw [eg] at s1; rw [zero_def] at s0
  obtain ⟨a, ha, rfl, a0, a1⟩ := between_cases s0 s1
  obtain ⟨b, hb, rfl⟩ := isFinite_iff.1 nf
  rw [one_def, fin_le_fin] at n1
  rw [div_fin (by linarith)]
  have q0 : 0 ≤ a / b := _root_.div_nonneg a0 (by linarith)
  have q1 : a / b ≤ pow2 126 := by
    rw [div_le_iff₀ (by linarith)]
    nlinarith [pow2_pos 126]
  refine ⟨rnd_nonneg q0, isFinite_of_between (lo := 0) (hi := rnd (pow2 126)) (by decide +kernel) (by decide +kernel)
    (rnd_nonneg q0) (rnd_mono q1)⟩

/-- **C69, range (partial)**: with a positive FFT size, a finite tuning and no infinite magnitude every entry lies in
`[0, 1]`. -/
theorem C69_range_partial (M : Libm) (hM : Sane M) (sr fft hop : ℕ) (hsr : sr ≤ 2 ^ 64) (hf : 0 < fft) (hf' : fft ≤ 2 ^ 64)
    (soft : Bool) (sigma tuning : F32) (ht : tuning.isFinite = true) (spec : List (List F32)) (hn : spec.length ≤ 2 ^ 64)
    (hl : ∀ fr ∈ spec, fr.length ≤ 2 ^ 64) (hm : ∀ fr ∈ spec, ∀ m ∈ fr, m ≠ inf false)
    (beats : List F32) (cs : List (List F32)) (es : List F32)
    (h : beatChroma M sr fft hop soft sigma tuning spec beats = .ok (cs, es)) :
    ∀ c ∈ cs, c.length = 12 ∧ ∀ y ∈ c, 0 ≤ y ∧ y ≤ 1 := by
  by_cases hs : spec = []
  · subst hs
    have : cs = [] := by
      have h' := h
      simp only [beatChroma, if_true, Except.ok.injEq, Prod.mk.injEq] at h'
      exact h'.1.symm
    subst this; simp
  by_cases hb : beats = []
  · subst hb
    rw [(C69_empty M sr fft hop soft sigma tuning spec []).2 hs] at h
    exact absurd h (by simp [R.err])
  obtain ⟨cs', es', e, l1, l2, l12, hk⟩ := C69_intervals M sr fft hop soft sigma tuning spec beats hs hb
  rw [e] at h
  obtain ⟨rfl, rfl⟩ : cs' = cs ∧ es' = es := by simpa using h
  intro c hc
  refine ⟨l12 c hc, ?_⟩
  obtain ⟨k, hkl, rfl⟩ := List.mem_iff_getElem.1 hc
  obtain ⟨ch, c1, c2, c3, c4⟩ := hk k (by omega)
  by_cases hE : startingIn sr hop spec.length beats[k] beats[k + 1] = []
  · have := (c3 hE).1
    rw [List.getElem?_eq_getElem hkl, Option.some.injEq] at this
    rw [this]
    intro y hy
    rw [List.eq_of_mem_replicate hy]
    decide +kernel
  · have := (c4 hE).1
    rw [List.getElem?_eq_getElem hkl, Option.some.injEq] at this
    rw [this]
    apply unitOrKeep_range
    apply meanVec_mags
    · intro h0; rw [h0] at c1
      exact hE (List.eq_nil_of_length_eq_zero c1.symm)
    · rw [c1]
      refine Nat.le_trans (List.length_filter_le _ _) ?_
      simpa using hn
    · intro c hc
      obtain ⟨t, ht', rfl⟩ := List.mem_iff_getElem.1 hc
      have ht2 : t < (startingIn sr hop spec.length beats[k] beats[k + 1]).length := by omega
      have e1 := c2 t _ _ (List.getElem?_eq_getElem ht2) (List.getElem?_eq_getElem ht')
      have hi := (mem_startingIn.1 (List.getElem_mem ht2)).1
      have hmem : spec.getD ((startingIn sr hop spec.length beats[k] beats[k + 1])[t]) [] ∈ spec := by
        rw [List.getD_eq_getElem?_getD, List.getElem?_eq_getElem hi]; exact List.getElem_mem hi
      obtain ⟨c', e2, l, r⟩ := C46_range_partial M hM sr fft hsr hf hf' soft sigma tuning ht _ (hl _ hmem) (hm _ hmem)
      rw [e1] at e2
      obtain rfl : ch[t] = c' := by simpa using e2
      exact ⟨l, r⟩

example : Sane saneLibm ∧ ∃ cs es, beatChroma saneLibm 1000 4 1000 false 0.5 0 [[0, 1, 2], [nan, -1, 5]] [0, 1, 2] = .ok (cs, es) ∧
    cs.length = 2 := ⟨sane_demo, by
  obtain ⟨cs, es, e, l, -⟩ := C69_intervals saneLibm 1000 4 1000 false 0.5 0 [[0, 1, 2], [nan, -1, 5]] [0, 1, 2]
    (by simp) (by simp)
  exact ⟨cs, es, e, l⟩⟩

theorem nan_mem_unitOrKeep {c : List F32} (h : nan ∈ c) : nan ∈ unitOrKeep c := by
  unfold unitOrKeep
  dsimp only
  split_ifs
  · exact List.mem_map.2 ⟨nan, h, by simp⟩
  · exact h

/-- **C69 is violated by an infinite magnitude**: the chroma vector of its beat has a NaN entry. -/
theorem C69_violated (M : Libm) (h : M.powf (inf false) 0.6 = inf false) (sigma tuning : F32) :
    ∃ c es, beatChroma M 1000 4 1000 false sigma tuning [[0, inf false, 0]] [0, 1] = .ok ([c], es) ∧ nan ∈ c := by
  obtain ⟨c0, e0, hn⟩ := C46_violated_infinite M h sigma tuning
  obtain ⟨cs, es, e, l1, -, l12, hk⟩ := C69_intervals M 1000 4 1000 false sigma tuning [[0, inf false, 0]] [0, 1] (by simp) (by simp)
  obtain ⟨ch, c1, c2, -, c4⟩ := hk 0 (by simp)
  have hst : startingIn 1000 1000 [[(0 : F32), inf false, 0]].length [(0 : F32), 1][0] [(0 : F32), 1][1] = [0] := by decide +kernel
  rw [hst] at c1 c2 c4
  obtain ⟨c, rfl⟩ : ∃ c, ch = [c] := List.length_eq_one_iff.1 c1
  have hc : frameToChroma M 1000 4 false sigma tuning [0, inf false, 0] = .ok c := c2 0 0 c rfl rfl
  have : c = c0 := by
    rw [e0] at hc
    exact (Except.ok.inj hc).symm
  subst this
  have h4 := (c4 (by simp)).1
  obtain ⟨d, rfl⟩ : ∃ d, cs = [d] := List.length_eq_one_iff.1 l1
  refine ⟨d, es, e, ?_⟩
  have hd : d = unitOrKeep (meanVec [c]) := by simpa using h4
  rw [hd]
  apply nan_mem_unitOrKeep
  have hc12 : c.length = 12 := by
    obtain ⟨c', e', l⟩ := frame_len M 1000 4 false sigma tuning [0, inf false, 0]
    rw [e0] at e'
    rw [Except.ok.inj e']; exact l
  obtain ⟨j, hj, ej⟩ := List.getElem_of_mem hn
  unfold meanVec
  refine List.mem_map.2 ⟨j, List.mem_range.2 (by omega), ?_⟩
  have : c.getD j 0 = nan := by rw [List.getD_eq_getElem?_getD, List.getElem?_eq_getElem hj, ej]; rfl
  rw [List.map_singleton, this, sum_nan (by simp)]
  simp

example : ∃ M : Libm, M.powf (inf false) 0.6 = inf false := ⟨{ saneLibm with powf := fun x _ => x }, rfl⟩

/-! ### Chroma from a log-frequency spectrogram -/

/-- the magnitudes of one frame that belong to pitch class `p`, lowest bin first: bin `i` is the semitone
`offset + i`, and bins that are not above zero are skipped -/
def classMags (offset : ℤ) (frame : List F32) (p : ℕ) : List F32 :=
  ((List.range frame.length).filter (fun i : ℕ => decide ((offset + i) % 12 = p) && !decide (frame.getD i 0 ≤ 0))).map
    (fun i => frame.getD i 0)

theorem addAt_get {c : List F32} (h : c.length = 12) {k : ℕ} (hk : k < 12) (v : F32) :
    ∃ c', addAt c k v = .ok c' ∧ c'.length = 12 ∧ ∀ j < 12, c'.getD j 0 = if k = j then c.getD j 0 + v else c.getD j 0 := by
  unfold addAt
  rw [if_pos (by omega)]
  refine ⟨_, rfl, by rw [List.length_modify]; exact h, fun j hj => ?_⟩
  rw [modify_get]
  by_cases hkj : k = j
  · rw [if_pos hkj, if_pos ⟨hkj, by omega⟩]
  · rw [if_neg hkj, if_neg (fun hh => hkj hh.1)]

theorem filter_shift (f : ℕ → Bool) (n i : ℕ) :
    (List.range' i (n + 1)).filter f = (if f i then [i] else []) ++ (List.range' (i + 1) n).filter f := by
  rw [List.range'_succ, List.filter_cons]
  split_ifs <;> rfl

theorem logBins_val (offset : ℤ) (h0 : -2 ^ 31 ≤ offset) (full : List F32) (hfit : offset + full.length ≤ 2 ^ 31)
    (hlen : full.length ≤ 2 ^ 31) :
    ∀ (ms : List F32) (i : ℕ) (c : List F32), c.length = 12 → full.drop i = ms →
      ∃ c', logBins offset i ms c = .ok c' ∧ c'.length = 12 ∧ ∀ p < 12, c'.getD p 0 =
        (((List.range' i ms.length).filter
          (fun t : ℕ => decide ((offset + t) % 12 = (p : ℤ)) && !decide (full.getD t 0 ≤ 0))).map
            (fun t => full.getD t 0)).foldl (· + ·) (c.getD p 0) := by
  intro ms
  induction ms with
  | nil => intro i c hc _; exact ⟨c, rfl, hc, fun p _ => rfl⟩
  | cons m ms ih =>
    intro i c hc hd
    have hi : i < full.length := by
      by_contra hh
      rw [List.drop_eq_nil_of_le (by omega)] at hd
      exact absurd hd (by simp)
    rw [List.drop_eq_getElem_cons hi] at hd
    obtain ⟨hm, hd'⟩ := List.cons.inj hd
    have hg : full.getD i 0 = m := by
      rw [List.getD_eq_getElem?_getD, List.getElem?_eq_getElem hi, Option.getD_some, hm]
    unfold logBins
    by_cases hz : m ≤ 0
    · rw [if_pos hz]
      obtain ⟨c', e, l, hv⟩ := ih (i + 1) c hc hd'
      refine ⟨c', e, l, fun p hp => ?_⟩
      rw [hv p hp, List.length_cons, filter_shift, hg]
      simp [hz]
    · rw [if_neg hz]
      have hi32 : Chroma.i32 (offset + asI32 i) = .ok (offset + i) := by
        rw [show asI32 i = i by unfold asI32; omega]
        unfold Chroma.i32
        rw [if_pos (by omega)]
      rw [hi32]
      simp only [R.ok_bind]
      have t0 := Int.emod_nonneg (offset + i) (by norm_num : (12 : ℤ) ≠ 0)
      have t1 := Int.emod_lt_of_pos (offset + i) (by norm_num : (0 : ℤ) < 12)
      obtain ⟨c1, e1, l1, g1⟩ := addAt_get hc (k := ((offset + i) % 12).toNat) (by omega) m
      rw [e1]
      obtain ⟨c', e, l, hv⟩ := ih (i + 1) c1 l1 hd'
      refine ⟨c', e, l, fun p hp => ?_⟩
      rw [hv p hp, List.length_cons, filter_shift, hg, g1 p hp]
      by_cases hk : (offset + i) % 12 = (p : ℤ)
      · rw [if_pos (by omega)]
        rw [if_pos (by simp [hk, hz]), List.singleton_append, List.map_cons, List.foldl_cons, hg]
      · rw [if_neg (by omega)]
        simp [hk]

theorem logFrame_val (offset : ℤ) (h0 : -2 ^ 31 ≤ offset) (frame : List F32) (hfit : offset + frame.length ≤ 2 ^ 31)
    (hlen : frame.length ≤ 2 ^ 31) :
    logBins offset 0 frame zero12 = .ok ((List.range 12).map (fun p => F32.sum (classMags offset frame p))) := by
  obtain ⟨c, e, l, hv⟩ := logBins_val offset h0 frame hfit hlen frame 0 zero12 rfl rfl
  rw [e]
  congr 1
  apply List.ext_getElem
  · simp [l]
  · intro p hp hp'
    have hp12 : p < 12 := by omega
    have := hv p hp12
    rw [List.getD_eq_getElem?_getD, List.getElem?_eq_getElem hp, Option.getD_some] at this
    rw [this, List.getElem_map, List.getElem_range, zero12_get]
    unfold F32.sum classMags
    rw [List.range_eq_range']

/-- **C70: log-frequency chroma.** When the semitone numbers fit `i32` the call succeeds with one twelve-entry vector
per frame, the (normalised) vector whose entry `p` is the sum of the positive magnitudes of the bins of
pitch class `p`. -/
theorem C70_value (offset : ℤ) (h0 : -2 ^ 31 ≤ offset) (spec : List (List F32))
    (hfit : ∀ fr ∈ spec, offset + fr.length ≤ 2 ^ 31 ∧ fr.length ≤ 2 ^ 31) :
    chromaOfLogSpec spec offset =
      .ok (spec.map (fun fr => unitOrKeep ((List.range 12).map (fun p => F32.sum (classMags offset fr p))))) := by
  unfold chromaOfLogSpec
  refine Silence.mapM_ok (fun fr hfr => ?_)
  obtain ⟨a, b⟩ := hfit fr hfr
  rw [logFrame_val offset h0 fr a b]
  rfl

/-- bins 0 and 12 are the same pitch class; a negative bin is skipped -/
example : classMags 9 [3, -1, 2, 0, 0, 0, 0, 0, 0, 0, 0, 0, 4] 9 = [3, 4] ∧
    classMags 9 [3, -1, 2, 0, 0, 0, 0, 0, 0, 0, 0, 0, 4] 10 = [] ∧
    chromaOfLogSpec [[3, -1, 4]] 9 = .ok [[0, 0, 0, 0, 0, 0, 0, 0, 0, 3 / 5, 0, 4 / 5]] := by decide +kernel

/-- **C70, octaves**: shifting the offset by octaves does not change the chroma. -/
theorem C70_octave (offset k : ℤ) (spec : List (List F32)) (h0 : -2 ^ 31 ≤ offset) (h1 : -2 ^ 31 ≤ offset + 12 * k)
    (hfit : ∀ fr ∈ spec, offset + fr.length ≤ 2 ^ 31 ∧ offset + 12 * k + fr.length ≤ 2 ^ 31 ∧ fr.length ≤ 2 ^ 31) :
    chromaOfLogSpec spec (offset + 12 * k) = chromaOfLogSpec spec offset := by
  rw [C70_value _ h1 spec (fun fr hfr => ⟨(hfit fr hfr).2.1, (hfit fr hfr).2.2⟩),
    C70_value _ h0 spec (fun fr hfr => ⟨(hfit fr hfr).1, (hfit fr hfr).2.2⟩)]
  have : ∀ fr p, classMags (offset + 12 * k) fr p = classMags offset fr p := by
    intro fr p
    unfold classMags
    congr 1
    apply List.filter_congr
    intro i _
    have : (offset + 12 * k + i) % 12 = (offset + i) % 12 := by omega
    rw [this]
  simp only [this]

example : chromaOfLogSpec [[3, -1, 4]] (9 + 12 * 5) = chromaOfLogSpec [[3, -1, 4]] 9 :=
  C70_octave 9 5 _ (by norm_num) (by norm_num) (by simp)

/-- **C70, transposition**: one step of offset moves every bin to the next pitch class. -/
theorem C70_transpose (offset : ℤ) (frame : List F32) (p : ℕ) (hp : p < 12) :
    classMags (offset + 1) frame ((p + 1) % 12) = classMags offset frame p := by
  unfold classMags
  congr 1
  apply List.filter_congr
  intro i _
  congr 1
  apply decide_eq_decide.2
  push_cast
  omega

example : classMags (9 + 1) [3, -1, 4] ((11 + 1) % 12) = [4] := by decide +kernel

theorem sum_sat77 {l : List F32} (h : ∀ x ∈ l, 0 ≤ x ∧ x ≤ rnd (pow2 77)) : 0 ≤ F32.sum l ∧ F32.sum l ≤ rnd (pow2 101) := by
  have key : ∀ (l : List F32), (∀ x ∈ l, 0 ≤ x ∧ x ≤ rnd (pow2 77)) → ∀ a : F32, 0 ≤ a → a ≤ rnd (pow2 101) →
      0 ≤ l.foldl (· + ·) a ∧ l.foldl (· + ·) a ≤ rnd (pow2 101) := by
    intro l
    induction l with
    | nil => intro _ a h0 h1; exact ⟨h0, h1⟩
    | cons x l ih =>
      intro h a h0 h1
      obtain ⟨x0, x1⟩ := h x (by simp)
      obtain ⟨a, b⟩ := add_sat h0 h1 x0 x1
      exact ih (fun y hy => h y (by simp [hy])) _ a b
  exact key l h 0 (by decide +kernel) (by decide +kernel)

/-- **C70, range (partial)**: for magnitudes up to `2^77` (no NaN) all entries lie in `[0, 1]`.  Missing: larger
magnitudes and NaN (`C70_violated`). -/
theorem C70_range_partial (offset : ℤ) (h0 : -2 ^ 31 ≤ offset) (spec : List (List F32))
    (hfit : ∀ fr ∈ spec, offset + fr.length ≤ 2 ^ 31 ∧ fr.length ≤ 2 ^ 31)
    (hm : ∀ fr ∈ spec, ∀ m ∈ fr, m ≤ rnd (pow2 77)) :
    ∃ cs, chromaOfLogSpec spec offset = .ok cs ∧ cs.length = spec.length ∧
      ∀ c ∈ cs, c.length = 12 ∧ ∀ y ∈ c, 0 ≤ y ∧ y ≤ 1 := by
  refine ⟨_, C70_value offset h0 spec hfit, by simp, ?_⟩
  intro c hc
  obtain ⟨fr, hfr, rfl⟩ := List.mem_map.1 hc
  refine ⟨by rw [length_unitOrKeep]; simp, unitOrKeep_range (acc_mags ⟨by simp, ?_⟩)⟩
  intro x hx
  obtain ⟨p, -, rfl⟩ := List.mem_map.1 hx
  apply sum_sat77
  intro y hy
  unfold classMags at hy
  obtain ⟨i, hi, rfl⟩ := List.mem_map.1 hy
  simp only [List.mem_filter, List.mem_range, Bool.and_eq_true, decide_eq_true_eq, Bool.not_eq_true',
    decide_eq_false_iff_not] at hi
  have h1 := hm fr hfr _ (getD_mem' hi.1)
  refine ⟨F32.le_of_not_lt (by decide +kernel) (ne_nan_left h1) (fun hlt => hi.2.2 (F32.le_of_lt hlt)), h1⟩

example : ∀ fr ∈ [[3, -1, (4 : F32)]], ∀ m ∈ fr, m ≤ rnd (pow2 77) := by decide +kernel

/-- **C70 is violated by NaN and by large offsets**: a NaN magnitude is passed on, without an error and with the
other entries not normalised, and a bin above semitone `i32::MAX` panics (debug arithmetic). -/
theorem C70_violated : chromaOfLogSpec [[3, nan]] 0 = .ok [[3, nan, 0, 0, 0, 0, 0, 0, 0, 0, 0, 0]] ∧
    chromaOfLogSpec [[1, 1]] (2 ^ 31 - 1) = R.panic := by
  decide +kernel

end Verif.Props
