import Verif.Props.KeyMode

/-! Property theorem for claim C42: the evidence behind a change of mode. -/

namespace Verif.Props

open Verif Verif.Keys Verif.KeyDet F32

/-- total weight of pitch class `j` over the frames (frames of non-positive weight are ignored), summed from the first frame on -/
def classTotal (chroma : List (List F32)) (weights : Option (List F32)) (j : ℕ) : F32 :=
  match weights with
  | none => F32.sum (chroma.map (fun c => c.getD j 0))
  | some w => F32.sum (((chroma.zip w).filter (fun p => !decide (p.2 ≤ 0))).map (fun p => p.2 * p.1.getD j 0))

/-- among the third, sixth and seventh above the tonic, some degree is louder in its `a` form than in its `b` form -/
def Louder (chroma : List (List F32)) (weights : Option (List F32)) (t : ℕ) (pairs : List (ℕ × ℕ)) : Prop :=
  ∃ p ∈ pairs, classTotal chroma weights ((t + p.2) % 12) < classTotal chroma weights ((t + p.1) % 12)

theorem addRow_getD {a x : List F32} (ha : a.length = 12) (hx : x.length = 12) {j : ℕ} (hj : j < 12) :
    (addRow a x).getD j 0 = a.getD j 0 + x.getD j 0 := by
  unfold addRow
  rw [List.getD_eq_getElem?_getD, List.getD_eq_getElem?_getD, List.getD_eq_getElem?_getD, List.getElem?_zipWith,
    List.getElem?_eq_getElem (by omega), List.getElem?_eq_getElem (by omega)]
  rfl

theorem addRow_length {a x : List F32} (ha : a.length = 12) (hx : x.length = 12) : (addRow a x).length = 12 := by
  unfold addRow; rw [List.length_zipWith]; omega

theorem getD_map_mul (x : List F32) (v : F32) (hx : x.length = 12) {j : ℕ} (hj : j < 12) :
    (x.map (fun y => v * y)).getD j 0 = v * x.getD j 0 := by
  rw [List.getD_eq_getElem?_getD, List.getD_eq_getElem?_getD, List.getElem?_map, List.getElem?_eq_getElem (by omega)]
  rfl

theorem chromaSum_class {chroma : List (List F32)} {weights : Option (List F32)} (hc : ∀ c ∈ chroma, c.length = 12) {j : ℕ} (hj : j < 12) :
    (chromaSum chroma weights).1.getD j 0 = classTotal chroma weights j := by
  have h0 : (List.replicate 12 (0 : F32)).getD j 0 = 0 := by
    rw [List.getD_eq_getElem?_getD, List.getElem?_replicate, if_pos hj]; rfl
  unfold chromaSum classTotal F32.sum
  rcases weights with _ | w
  · dsimp only
    have : ∀ (l : List (List F32)) (a : List F32), (∀ c ∈ l, c.length = 12) → a.length = 12 →
        (l.foldl addRow a).getD j 0 = (l.map (fun c => c.getD j 0)).foldl (· + ·) (a.getD j 0) := by
      intro l
      induction l with
      | nil => intro a _ _; rfl
      | cons x l ih =>
        intro a hl ha
        rw [List.foldl_cons, ih _ (fun c hc => hl c (by simp [hc])) (addRow_length ha (hl x (by simp))), List.map_cons, List.foldl_cons,
          addRow_getD ha (hl x (by simp)) hj]
    rw [this _ _ hc (by simp), h0]
  · dsimp only
    have : ∀ (l : List (List F32 × F32)) (a : List F32) (b : F32), (∀ c ∈ l, c.1.length = 12) → a.length = 12 →
        (l.foldl (fun acc p => if p.2 ≤ 0 then acc else (addRow acc.1 (p.1.map (fun x => p.2 * x)), acc.2 + p.2)) (a, b)).1.getD j 0 =
        ((l.filter (fun p => !decide (p.2 ≤ 0))).map (fun p => p.2 * p.1.getD j 0)).foldl (· + ·) (a.getD j 0) := by
      intro l
      induction l with
      | nil => intro a b _ _; rfl
      | cons x l ih =>
        intro a b hl ha
        have hx := hl x (by simp)
        have hl' : ∀ c ∈ l, c.1.length = 12 := fun c hc => hl c (by simp [hc])
        rw [List.foldl_cons]
        by_cases hp : x.2 ≤ 0
        · rw [if_pos hp, ih _ _ hl' ha, List.filter_cons_of_neg (by simp [hp])]
        · rw [if_neg hp, ih _ _ hl' (addRow_length ha (by simpa using hx)), List.filter_cons_of_pos (by simp [hp]), List.map_cons,
            List.foldl_cons, addRow_getD ha (by simpa using hx) hj, getD_map_mul _ _ hx hj]
    rw [this _ _ _ (fun p hp => hc _ (List.of_mem_zip hp).1) (by simp), h0]

theorem classTotal_nonneg {chroma : List (List F32)} {weights : Option (List F32)} (hc : ChromaInput chroma weights) (j : ℕ) :
    0 ≤ classTotal chroma weights j := by
  have h0 : (0 : F32) ≤ 0 := by decide +kernel
  have hx : ∀ c ∈ chroma, 0 ≤ c.getD j 0 ∧ c.getD j 0 ≤ 1 := by
    intro c hc'
    rw [List.getD_eq_getElem?_getD]
    rcases e : c[j]? with _ | x
    · exact ⟨h0, by decide +kernel⟩
    · exact (hc.rows c hc').2 x (List.mem_of_getElem? e)
  unfold classTotal
  rcases weights with _ | w
  · exact sum_nonneg (fun x h => by obtain ⟨c, h1, rfl⟩ := List.mem_map.1 h; exact (hx c h1).1)
  · apply sum_nonneg
    intro x h
    obtain ⟨p, hp, rfl⟩ := List.mem_map.1 h
    have hp := List.of_mem_zip (List.mem_filter.1 hp).1
    have hw := hc.weights w rfl _ hp.2
    have hfw : p.2.isFinite = true := isFinite_of_between (by decide +kernel) (by decide +kernel) hw.1 hw.2
    have hfx : (p.1.getD j 0).isFinite = true := isFinite_of_unit (hx _ hp.1).1 (hx _ hp.1).2
    exact F32.mul_nonneg hw.1 (hx _ hp.1).1 (mul_fin_ne_nan hfw hfx)

/-- non-negative or NaN -/
def NonnegOrNaN (x : F32) : Prop := x = nan ∨ 0 ≤ x

theorem NonnegOrNaN.add {x y : F32} (hx : NonnegOrNaN x) (hy : NonnegOrNaN y) : NonnegOrNaN (x + y) := by
  rcases hx with rfl | hx
  · left; exact nan_add _
  rcases hy with rfl | hy
  · left; rw [F32.add_comm]; exact nan_add _
  · right; exact F32.add_nonneg hx hy

theorem NonnegOrNaN.mul {x y : F32} (hx : NonnegOrNaN x) (hy : NonnegOrNaN y) : NonnegOrNaN (x * y) := by
  rcases hx with rfl | hx
  · left; exact nan_mul _
  rcases hy with rfl | hy
  · left; exact mul_nan _
  by_cases h : x * y = nan
  · exact .inl h
  · exact .inr (F32.mul_nonneg hx hy h)

theorem not_lt_zero {x : F32} (h : NonnegOrNaN x) : ¬ x < 0 := by
  intro h'
  rcases h with rfl | h
  · exact absurd (F32.le_of_lt h') (fun h => ne_nan_left h rfl)
  · exact not_lt_of_le h h'

theorem degree_vote {mg m a b : F32} (hm : 0 ≤ m) {acc : F32 × F32} (h : NonnegOrNaN acc.1 ∧ NonnegOrNaN acc.2) :
    (NonnegOrNaN (degreeVote mg m a b acc).1 ∧ NonnegOrNaN (degreeVote mg m a b acc).2) ∧
    ((degreeVote mg m a b acc).1 = acc.1 ∨ b * (1 + mg) < a) ∧ ((degreeVote mg m a b acc).2 = acc.2 ∨ a * (1 + mg) < b) := by
  have hd : NonnegOrNaN ((a - b).abs * m) := by
    refine NonnegOrNaN.mul ?_ (.inr hm)
    by_cases hn : a - b = nan
    · left; rw [hn]; rfl
    · right; exact F32.abs_nonneg hn
  unfold degreeVote
  dsimp only
  split_ifs with h1 h2
  · exact ⟨⟨h.1.add hd, h.2⟩, .inr h1, .inl rfl⟩
  · exact ⟨⟨h.1, h.2.add hd⟩, .inl rfl, .inr h2⟩
  · exact ⟨h, .inl rfl, .inl rfl⟩

theorem votes_pref {tm : F32} {avg : List F32} {t : ℕ} :
    ((modePref tm avg t).1 = true → ∃ p ∈ [(3, 4), (8, 9), (10, 11)],
      avg.getD ((t + p.2) % 12) 0 * (1 + F32.max tm 0) < avg.getD ((t + p.1) % 12) 0) ∧
    ((modePref tm avg t).2 = true → ∃ p ∈ [(4, 3), (9, 8), (11, 10)],
      avg.getD ((t + p.2) % 12) 0 * (1 + F32.max tm 0) < avg.getD ((t + p.1) % 12) 0) := by
  have hz : NonnegOrNaN (0 : F32) := .inr (by decide +kernel)
  obtain ⟨a1, a2, a3⟩ := degree_vote (mg := F32.max tm 0) (m := 2) (a := avg.getD ((t + 3) % 12) 0) (b := avg.getD ((t + 4) % 12) 0)
    (by decide +kernel) (acc := (0, 0)) ⟨hz, hz⟩
  obtain ⟨b1, b2, b3⟩ := degree_vote (mg := F32.max tm 0) (m := 1) (a := avg.getD ((t + 8) % 12) 0) (b := avg.getD ((t + 9) % 12) 0)
    (by decide +kernel) a1
  obtain ⟨c1, c2, c3⟩ := degree_vote (mg := F32.max tm 0) (m := 1) (a := avg.getD ((t + 10) % 12) 0) (b := avg.getD ((t + 11) % 12) 0)
    (by decide +kernel) b1
  have hk : NonnegOrNaN (1 + F32.max tm 0 * 0.5) := by
    refine NonnegOrNaN.add (.inr (by decide +kernel)) (NonnegOrNaN.mul (.inr ?_) (.inr (by decide +kernel)))
    exact le_max_right (by decide +kernel)
  unfold modePref
  dsimp only
  constructor
  · intro h
    split_ifs at h
    have h := of_decide_eq_true h
    rcases c2 with c2 | c2
    swap
    · exact ⟨(10, 11), by simp, c2⟩
    rcases b2 with b2 | b2
    swap
    · exact ⟨(8, 9), by simp, b2⟩
    rcases a2 with a2 | a2
    swap
    · exact ⟨(3, 4), by simp, a2⟩
    rw [c2, b2, a2] at h
    exact absurd h (not_lt_zero (c1.2.mul hk))
  · intro h
    split_ifs at h
    have h := of_decide_eq_true h
    rcases c3 with c3 | c3
    swap
    · exact ⟨(11, 10), by simp, c3⟩
    rcases b3 with b3 | b3
    swap
    · exact ⟨(9, 8), by simp, b3⟩
    rcases a3 with a3 | a3
    swap
    · exact ⟨(4, 3), by simp, a3⟩
    rw [c3, b3, a3] at h
    exact absurd h (not_lt_zero (c1.1.mul hk))

theorem mul_one' {x : F32} : x * 1 = x := by
  rcases x with _ | s | ⟨v, hv⟩
  · rfl
  · cases s <;> decide +kernel
  · rw [one_def, mul_fin, _root_.mul_one, rnd_val]

theorem louder_of_avg {chroma : List (List F32)} {weights : Option (List F32)} (hc : ChromaInput chroma weights) {tm : F32} {i j : ℕ}
    (hi : i < 12) (hj : j < 12)
    (h : (chromaAvg (chromaSum chroma weights).1).getD j 0 * (1 + F32.max tm 0) < (chromaAvg (chromaSum chroma weights).1).getD i 0) :
    classTotal chroma weights j < classTotal chroma weights i := by
  have hrows : ∀ c ∈ chroma, c.length = 12 := fun c h => (hc.rows c h).1
  have hm : (0 : F32) ≤ F32.max tm 0 := le_max_right (by decide +kernel)
  have hstep : ∀ {x y : F32}, 0 ≤ x → x * (1 + F32.max tm 0) < y → x < y := by
    intro x y hx hlt
    have hn : x * (1 + F32.max tm 0) ≠ nan := ne_nan_left (F32.le_of_lt hlt)
    have h1 : (1 : F32) ≤ 1 + F32.max tm 0 := le_add_right (by decide +kernel) hm
    have := F32.mul_le_mul_of_nonneg_left h1 hx (by rw [mul_one']; exact ne_nan_right hx) hn
    rw [mul_one'] at this
    exact lt_of_le_of_lt this hlt
  have hi0 := classTotal_nonneg hc i
  have hj0 := classTotal_nonneg hc j
  rw [← chromaSum_class hrows hi, ← chromaSum_class hrows hj] at *
  have hget : ∀ (l : List F32) (t : F32) (k : ℕ), (l.map (fun x => x / t)).getD k 0 = (l.map (fun x => x / t))[k]?.getD 0 := fun l t k =>
    List.getD_eq_getElem?_getD
  generalize hS : (chromaSum chroma weights).1 = S at *
  have hlen : S.length = 12 := by
    rw [← hS]
    unfold chromaSum
    rcases weights with _ | w
    · dsimp only
      have : ∀ (l : List (List F32)) (a : List F32), (∀ c ∈ l, c.length = 12) → a.length = 12 → (l.foldl addRow a).length = 12 := by
        intro l
        induction l with
        | nil => intro a _ h; exact h
        | cons x l ih => intro a hl ha; exact ih _ (fun c hc => hl c (by simp [hc])) (addRow_length ha (hl x (by simp)))
      exact this _ _ hrows (by simp)
    · dsimp only
      have : ∀ (l : List (List F32 × F32)) (a : List F32) (b : F32), (∀ c ∈ l, c.1.length = 12) → a.length = 12 →
          (l.foldl (fun acc p => if p.2 ≤ 0 then acc else (addRow acc.1 (p.1.map (fun x => p.2 * x)), acc.2 + p.2)) (a, b)).1.length = 12 := by
        intro l
        induction l with
        | nil => intro a b _ h; exact h
        | cons x l ih =>
          intro a b hl ha
          rw [List.foldl_cons]
          split_ifs
          · exact ih _ _ (fun c hc => hl c (by simp [hc])) ha
          · exact ih _ _ (fun c hc => hl c (by simp [hc])) (addRow_length ha (by simpa using hl x (by simp)))
      exact this _ _ _ (fun p hp => hrows _ (List.of_mem_zip hp).1) (by simp)
  unfold chromaAvg at h
  dsimp only at h
  split_ifs at h with ht
  · have e : ∀ k, k < 12 → (S.map (fun x => x / F32.sum S)).getD k 0 = S.getD k 0 / F32.sum S := by
      intro k hk
      rw [hget, List.getElem?_map, List.getD_eq_getElem?_getD, List.getElem?_eq_getElem (by omega)]
      rfl
    rw [e i hi, e j hj] at h
    have htp : 0 < F32.sum S := lt_trans (by decide +kernel) ht
    have hnj : S.getD j 0 / F32.sum S ≠ nan := by
      intro hn
      rw [hn, nan_mul] at h
      exact ne_nan_left (F32.le_of_lt h) rfl
    have hni := ne_nan_right (F32.le_of_lt h)
    have hlt := hstep (F32.div_nonneg hj0 (F32.le_of_lt htp) hnj) h
    refine F32.lt_of_not_le (ne_nan_right hj0) (ne_nan_right hi0) (fun hle => ?_)
    exact not_lt_of_le (div_le_div_right hle htp hni hnj) hlt
  · exact hstep hj0 h

/-- **C42** (evidence): the heuristic changes the mode of the first-ranked key to minor only if the minor third, sixth or
seventh above the tonic is louder, over the whole chroma, than its major form; and to major only if the major form of one of
them is louder. -/
theorem C42_evidence (ord : List (Key × F32) → List (Key × F32)) (chroma : List (List F32))
    (T : Templates) (weights : Option (List F32)) (hc : ChromaInput chroma weights) (tm fm : F32) (bonus : Bool) (bw : F32) (r : Res)
    (h : detectKeyMode ord chroma T weights tm fm bonus bw = .ok r) (hbase : detectKey ord chroma T weights ≠ .ok r)
    (t : ℕ) :
    (r.key = .minor t → (∃ s, r.all.head? = some (.major t, s)) → Louder chroma weights t [(3, 4), (8, 9), (10, 11)]) ∧
    (r.key = .major t → (∃ s, r.all.head? = some (.minor t, s)) → Louder chroma weights t [(4, 3), (9, 8), (11, 10)]) := by
  obtain ⟨base, hb, e | ⟨_, e2, _⟩⟩ := mode_ok h
  · rw [e] at hbase; exact absurd hb hbase
  have hmod : ∀ d, (t + d) % 12 < 12 := fun d => Nat.mod_lt _ (by norm_num)
  have hhead : ∀ k s, r.all.head? = some (k, s) → (r.all.getD 0 (.major 0, 0)).1 = k := by
    intro k s hs
    rcases hl : r.all with _ | ⟨a, l⟩
    · rw [hl] at hs; simp at hs
    · rw [hl] at hs
      simp only [List.head?_cons, Option.some.injEq] at hs
      simp [hs]
  constructor
  · rintro hk ⟨s, hs⟩
    rw [hhead _ _ hs] at e2
    have hp : (modePref tm (chromaAvg (chromaSum chroma weights).1) t).1 = true := by
      rw [hk] at e2
      unfold chooseMode at e2
      split_ifs at e2
      have ht : tonic (Key.major t) = t := rfl
      simp only [ht] at e2
      split_ifs at e2 with hc'
      simp only [Bool.and_eq_true] at hc'
      exact hc'.1.1
    obtain ⟨p, hp, hlt⟩ := votes_pref.1 hp
    exact ⟨p, hp, louder_of_avg hc (hmod _) (hmod _) hlt⟩
  · rintro hk ⟨s, hs⟩
    rw [hhead _ _ hs] at e2
    have hp : (modePref tm (chromaAvg (chromaSum chroma weights).1) t).2 = true := by
      rw [hk] at e2
      unfold chooseMode at e2
      split_ifs at e2
      have ht : tonic (Key.minor t) = t := rfl
      simp only [ht] at e2
      split_ifs at e2 with hc'
      simp only [Bool.and_eq_true] at hc'
      exact hc'.1.1
    obtain ⟨p, hp, hlt⟩ := votes_pref.2 hp
    exact ⟨p, hp, louder_of_avg hc (hmod _) (hmod _) hlt⟩

-- C and G with more E♭ than E: C major is ranked first and C minor is reported; the minor third is the louder one
example : ∃ r, detectKeyMode id [[1, 0, 0, 0.5, 0.3, 0, 0, 1, 0, 0, 0, 0]] krumhanslKessler none 0 0.5 false 0 = .ok r ∧
    r.key = .minor 0 ∧ (∃ s, r.all.head? = some (.major 0, s)) ∧
    Louder [[1, 0, 0, 0.5, 0.3, 0, 0, 1, 0, 0, 0, 0]] none 0 [(3, 4), (8, 9), (10, 11)] := by
  have run : (match detectKeyMode id [[1, 0, 0, 0.5, 0.3, 0, 0, 1, 0, 0, 0, 0]] krumhanslKessler none 0 0.5 false 0,
      detectKey id [[1, 0, 0, 0.5, 0.3, 0, 0, 1, 0, 0, 0, 0]] krumhanslKessler none with
    | .ok r, .ok b => decide (r.key = .minor 0) && decide (r.all.head?.map Prod.fst = some (.major 0)) && decide (b ≠ r)
    | _, _ => false) = true := by decide +kernel
  rcases e : detectKeyMode id [[1, 0, 0, 0.5, 0.3, 0, 0, 1, 0, 0, 0, 0]] krumhanslKessler none 0 0.5 false 0 with x | r
  · rw [e] at run; simp at run
  rcases e' : detectKey id [[1, 0, 0, 0.5, 0.3, 0, 0, 1, 0, 0, 0, 0]] krumhanslKessler none with x | b
  · rw [e, e'] at run; simp at run
  rw [e, e'] at run
  simp only [Bool.and_eq_true, decide_eq_true_eq] at run
  obtain ⟨⟨h1, h2⟩, h3⟩ := run
  have h4 : ∃ s, r.all.head? = some (.major 0, s) := by
    rcases hh : r.all.head? with _ | ⟨k, s⟩
    · rw [hh] at h2; simp at h2
    · rw [hh] at h2
      simp only [Option.map_some, Option.some.injEq] at h2
      exact ⟨s, by rw [h2]⟩
  refine ⟨r, rfl, h1, h4, ?_⟩
  refine (C42_evidence id _ krumhanslKessler none ⟨by simp, by decide +kernel, by simp, by simp⟩ 0 0.5 false 0 r e ?_ 0).1 h1 h4
  rw [e']
  simpa using h3

end Verif.Props
