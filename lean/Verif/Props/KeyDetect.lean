import Verif.Lemmas.KeyRank

/-! Property theorems for claims C40, C41, C58, C59 and C60: key detection. -/

namespace Verif.Props

open Verif Verif.Keys Verif.KeyDet F32

/-! ### specification -/

/-- a key the library can report: twelve tonics in two modes -/
def ValidKey : Key → Prop
  | .major i => i < 12
  | .minor i => i < 12

instance : DecidablePred ValidKey
  | .major i => inferInstanceAs (Decidable (i < 12))
  | .minor i => inferInstanceAs (Decidable (i < 12))

/-- the list has every valid key exactly once and nothing else -/
def Complete (l : List (Key × F32)) : Prop :=
  ∀ k, (l.filter (fun p => decide (p.1 = k))).length = if ValidKey k then 1 else 0

/-- the two keys have the same mode -/
def SameMode : Key → Key → Prop
  | .major _, .major _ => True
  | .minor _, .minor _ => True
  | _, _ => False

/-- how well the template of a key matches the frames: the (weighted) sum of the frames' inner products with it -/
def matchScore (chroma : List (List F32)) (T : Templates) (weights : Option (List F32)) : Key → F32
  | .major i => weightedSumDot chroma weights (T.getMajor i)
  | .minor i => weightedSumDot chroma weights (T.getMinor i)

/-- what the chroma extraction delivers: rows of twelve values in [0,1], and frame weights (if any) one per row, between 0
and 2^60 -/
structure ChromaInput (chroma : List (List F32)) (weights : Option (List F32)) : Prop where
  ne : chroma ≠ []
  rows : ∀ c ∈ chroma, c.length = 12 ∧ ∀ x ∈ c, 0 ≤ x ∧ x ≤ 1
  len : ∀ w, weights = some w → w.length = chroma.length
  weights : ∀ w, weights = some w → ∀ x ∈ w, 0 ≤ x ∧ x ≤ rnd (pow2 60)

/-- templates with weights in [0,1] (both built-in families, see `C44_weights`) -/
def UnitTemplates (T : Templates) : Prop :=
  (∀ k, ∀ x ∈ T.major k, 0 ≤ x ∧ x ≤ 1) ∧ ∀ k, ∀ x ∈ T.minor k, 0 ≤ x ∧ x ≤ 1

/-! ### lemmas -/

theorem validKey_iff (k : Key) : ValidKey k ↔ k ∈ allKeys := by
  constructor
  · intro h; apply mem_allKeys; cases k <;> exact h
  · intro h; have := allKeys_tonic h; cases k <;> exact this

theorem complete_of_perm {l : List (Key × F32)} (h : (l.map Prod.fst).Perm allKeys) : Complete l := by
  intro k
  have h1 : (l.filter (fun p => decide (p.1 = k))).length = (l.map Prod.fst).count k := by
    rw [List.count, List.countP_map, List.countP_eq_length_filter]
    congr 1
  rw [h1, h.count_eq]
  split_ifs with hk
  · exact List.count_eq_one_of_mem allKeys_nodup ((validKey_iff k).1 hk)
  · exact List.count_eq_zero_of_not_mem (fun hm => hk ((validKey_iff k).2 hm))

theorem find_best {l : List (Key × F32)} {P : Key → Bool} {b : Key × F32} (d : F32) (hs : l.Pairwise (fun a b => b.2 ≤ a.2))
    (hn : ∀ p ∈ l, p.2 ≠ nan) (hb : b ∈ l) (hP : P b.1 = true) :
    ∃ a ∈ l, P a.1 = true ∧ findScore P l d = a.2 ∧ ∀ c ∈ l, P c.1 = true → c.2 ≤ a.2 := by
  induction l with
  | nil => simp at hb
  | cons x l ih =>
    have hp := List.pairwise_cons.1 hs
    by_cases hx : P x.1 = true
    · refine ⟨x, by simp, hx, ?_, ?_⟩
      · unfold findScore; rw [List.find?_cons_of_pos (by simpa using hx)]; rfl
      · intro c hc _
        rcases List.mem_cons.1 hc with rfl | hc
        · exact F32.le_refl (hn _ (by simp))
        · exact hp.1 c hc
    · have hb' : b ∈ l := by
        rcases List.mem_cons.1 hb with rfl | hb
        · exact absurd hP hx
        · exact hb
      obtain ⟨a, ha, h1, h2, h3⟩ := ih hp.2 (fun p hp => hn p (by simp [hp])) hb'
      refine ⟨a, by simp [ha], h1, ?_, ?_⟩
      · rw [← h2]; unfold findScore; rw [List.find?_cons_of_neg (by simpa using hx)]
      · intro c hc hPc
        rcases List.mem_cons.1 hc with rfl | hc
        · exact absurd hPc hx
        · exact h3 c hc hPc

theorem margin_unit {s o : F32} (hs : s ≠ inf false) : 0 ≤ margin s o ∧ margin s o ≤ 1 ∨ o = nan := by
  by_cases ho : o = nan
  · right; exact ho
  left
  unfold margin
  split_ifs with h
  · rcases nonneg_cases (F32.le_of_lt h) with rfl | ⟨v, hv, rfl, v0⟩
    · exact absurd rfl hs
    · have hv0 : 0 < v := by rw [zero_def] at h; exact fin_lt_fin.1 h
      apply clamp01
      rcases o with _ | c | ⟨w, hw⟩
      · exact absurd rfl ho
      · cases c
        · show (inf true : F32) / fin v hv ≠ nan; rw [inf_div_fin]; simp
        · show (inf false : F32) / fin v hv ≠ nan; rw [inf_div_fin]; simp
      · rw [sub_fin]
        have := rnd_ne_nan (v - w)
        rcases hr : rnd (v - w) with _ | c | ⟨z, hz⟩
        · exact absurd hr this
        · rw [inf_div_fin]; simp
        · rw [div_fin hv0.ne']; exact rnd_ne_nan _
  · exact ⟨by decide +kernel, by decide +kernel⟩

theorem margin_self {s : F32} (hs : s ≠ inf false) : margin s s = 0 := by
  unfold margin
  split_ifs with h
  · rcases nonneg_cases (F32.le_of_lt h) with rfl | ⟨v, hv, rfl, v0⟩
    · exact absurd rfl hs
    · have hv0 : 0 < v := by rw [zero_def] at h; exact fin_lt_fin.1 h
      rw [sub_fin, sub_self, rnd_zero, zero_def, div_fin hv0.ne', zero_div, rnd_zero]
      decide +kernel
  · rfl

/-- the parts of a successful detection: the reported key with its (best) score, and the runner-up -/
theorem detect_spec {ord : List (Key × F32) → List (Key × F32)} (hord : ∀ l, (ord l).Perm l) {chroma : List (List F32)}
    {T : Templates} {weights : Option (List F32)} {r : Res} (h : detectKey ord chroma T weights = .ok r) :
    ∃ s o, (r.key, s) ∈ r.top ∧ (r.key, s) ∈ r.all ∧ (∀ p ∈ r.all, p.2 ≤ s) ∧
      (∃ k, k ≠ r.key ∧ (k, o) ∈ r.all) ∧ (∀ p ∈ r.all, p.1 ≠ r.key → p.2 ≤ o) ∧ r.conf = margin s o := by
  obtain ⟨h1, h2, h3⟩ := detectKey_all h
  obtain ⟨_, _, ek, ec, et⟩ := detectKey_ok h
  have hnd : (r.all.map Prod.fst).Nodup := h1.nodup_iff.2 allKeys_nodup
  have hlen : r.all.length = 24 := by
    have := h1.length_eq; rw [List.length_map] at this; exact this.trans (by decide +kernel)
  obtain ⟨s, m1, m2⟩ := finalKey_max hord (by omega) h2 hnd h3
  rw [← ek, ← et] at m1
  have m1' : (r.key, s) ∈ r.all := by rw [et] at m1; exact List.mem_of_mem_take m1
  obtain ⟨a, ha, hk, hf, _⟩ := find_best (P := fun k => decide (k = r.key)) (r.all.getD 0 (.major 0, 0)).2 h3 h2 m1' (by simp)
  have hak : a = (r.key, s) := List.inj_on_of_nodup_map hnd ha m1' (by simpa using hk)
  obtain ⟨b, hb, hbk⟩ : ∃ b ∈ r.all, b.1 ≠ r.key := by
    by_contra hc; push Not at hc
    have k0 : Key.major 0 ∈ r.all.map Prod.fst := h1.mem_iff.2 (by decide +kernel)
    have k1 : Key.major 1 ∈ r.all.map Prod.fst := h1.mem_iff.2 (by decide +kernel)
    obtain ⟨p, hp, e0⟩ := List.mem_map.1 k0
    obtain ⟨q, hq, e1⟩ := List.mem_map.1 k1
    have := (hc p hp).trans (hc q hq).symm
    rw [e0, e1] at this; exact absurd this (by decide)
  obtain ⟨o, ho, hok, hof, hom⟩ := find_best (P := fun k => decide (k ≠ r.key)) 0 h3 h2 hb (by simpa using hbk)
  refine ⟨s, o.2, m1, m1', m2, ⟨o.1, by simpa using hok, ho⟩, fun p hp hpk => hom p hp (by simpa using hpk), ?_⟩
  rw [ec, hf, hof, hak]

/-! ### C40 -/

/-- **C40** (ranking): a successful detection ranks all 24 keys once each by non-increasing score, `top_keys` is the first
three entries, and the reported key is among them with a maximal score, whatever the iteration order of the vote map. -/
theorem C40_ranking (ord : List (Key × F32) → List (Key × F32)) (hord : ∀ l, (ord l).Perm l) (chroma : List (List F32))
    (T : Templates) (weights : Option (List F32)) (r : Res) (h : detectKey ord chroma T weights = .ok r) :
    Complete r.all ∧ r.all.Pairwise (fun a b => b.2 ≤ a.2) ∧ r.top = r.all.take 3 ∧
    ∃ s, (r.key, s) ∈ r.top ∧ ∀ p ∈ r.all, p.2 ≤ s := by
  obtain ⟨h1, h2, h3⟩ := detectKey_all h
  obtain ⟨s, o, m0, m1, m2, _⟩ := detect_spec hord h
  exact ⟨complete_of_perm h1, h3, (detectKey_ok h).2.2.2.2, s, m0, m2⟩

/-- non-vacuity: the notes of a C major chord; the reported key is C major -/
example : (match detectKey id [[1, 0, 0, 0, 1, 0, 0, 1, 0, 0, 0, 0]] krumhanslKessler none with
    | .ok r => decide (r.key = .major 0) | .error _ => false) = true := by decide +kernel

/-- **C40** (confidence): the confidence is in [0,1] exactly when the best score is not +∞; then it is the relative
distance of the best score to the runner-up (`margin`). -/
theorem C40_confidence (ord : List (Key × F32) → List (Key × F32)) (hord : ∀ l, (ord l).Perm l) (chroma : List (List F32))
    (T : Templates) (weights : Option (List F32)) (r : Res) (h : detectKey ord chroma T weights = .ok r) :
    (0 ≤ r.conf ∧ r.conf ≤ 1) ↔ ∀ p ∈ r.all, p.2 ≠ inf false := by
  obtain ⟨s, o, _, m1, m2, ⟨k, _, ho⟩, _, ec⟩ := detect_spec hord h
  have hn := (detectKey_all h).2.1
  constructor
  · intro hu p hp he
    have hs : s = inf false := by
      have := m2 p hp; rw [he] at this
      rcases s with _ | c | ⟨v, hv⟩
      · exact absurd rfl (ne_nan_right this)
      · cases c
        · rfl
        · exact absurd this (by decide +kernel)
      · simp at this
    rw [ec, hs] at hu
    have : margin (inf false) o = nan := by
      unfold margin
      rw [if_pos (by decide +kernel)]
      rcases o with _ | c | ⟨v, hv⟩
      · decide +kernel
      · cases c <;> decide +kernel
      · show F32.clamp ((inf false + fin (-v) _) / inf false) 0 1 = nan
        rw [inf_add_fin, inf_div_inf, clamp_nan]
    rw [this] at hu
    exact ne_nan_right hu.1 rfl
  · intro hp
    rw [ec]
    rcases margin_unit (hp _ m1) (o := o) with h | h
    · exact h
    · exact absurd h (hn _ ho)

/-- **C40 violated** (confidence): with a template of very large weights, which the public fields of `KeyTemplates` allow,
the bonus overflows and the confidence is NaN. -/
theorem C40_violated :
    (match detectKey id [[1, 0, 0, 0, 0, 0, 0, 0, 0, 0, 0, 0]]
        ⟨fun k => if k = 0 then [3e38] else [0], fun _ => [0]⟩ none with
      | .ok r => decide (r.conf = nan) | .error _ => false) = true := by decide +kernel

/-! ### C41 -/

/-- **C41** (partial): two runs with different hash seeds return the same ranking, the same top three and the same
confidence; the reported keys may differ only if both have the best score.  Missing: equality of the reported keys, see
`C41_violated`. -/
theorem C41_deterministic_partial (ord ord' : List (Key × F32) → List (Key × F32)) (hord : ∀ l, (ord l).Perm l)
    (hord' : ∀ l, (ord' l).Perm l) (chroma : List (List F32)) (T : Templates) (weights : Option (List F32)) (r r' : Res)
    (h : detectKey ord chroma T weights = .ok r) (h' : detectKey ord' chroma T weights = .ok r') :
    r.all = r'.all ∧ r.top = r'.top ∧ r.conf = r'.conf ∧
    (r.key = r'.key ∨ ∃ s, (r.key, s) ∈ r.all ∧ (r'.key, s) ∈ r.all ∧ ∀ p ∈ r.all, p.2 ≤ s) := by
  obtain ⟨_, e, _, _, et⟩ := detectKey_ok h
  obtain ⟨_, e', _, _, et'⟩ := detectKey_ok h'
  have hall : r.all = r'.all := e.trans e'.symm
  obtain ⟨s, o, _, m1, m2, ⟨k, hk, ho⟩, om, ec⟩ := detect_spec hord h
  obtain ⟨s', o', _, m1', m2', ⟨k', hk', ho'⟩, om', ec'⟩ := detect_spec hord' h'
  rw [← hall] at m1' m2' ho' om'
  have hs : s = s' := F32.le_antisymm (m2' _ m1) (m2 _ m1')
  refine ⟨hall, by rw [et, et', hall], ?_, ?_⟩
  · rw [ec, ec', hs]
    congr 1
    by_cases hkk : r.key = r'.key
    · exact F32.le_antisymm (om' _ ho (by rw [← hkk]; exact hk)) (om _ ho' (by rw [hkk]; exact hk'))
    · have e1 : o = s := F32.le_antisymm (m2 _ ho) (by rw [hs]; exact om _ m1' (fun hc => hkk hc.symm))
      have e2 : o' = s' := F32.le_antisymm (m2' _ ho') (by rw [← hs]; exact om' _ m1 hkk)
      rw [e1, e2, hs]
  · by_cases hkk : r.key = r'.key
    · left; exact hkk
    · right; exact ⟨s, m1, by rw [hs]; exact m1', m2⟩

/-- **C41 violated**: the C major profile itself is reported as C major or as A minor, depending on the hash seed. -/
theorem C41_violated :
    (match detectKey id [krumhanslKessler.getMajor 0] krumhanslKessler none,
        detectKey List.reverse [krumhanslKessler.getMajor 0] krumhanslKessler none with
      | .ok r, .ok r' => decide (r.key = .minor 9) && decide (r'.key = .major 0) | _, _ => false) = true := by decide +kernel

/-- both orders of the witness are permutations -/
example : (∀ l : List (Key × F32), (id l).Perm l) ∧ ∀ l : List (Key × F32), (List.reverse l).Perm l :=
  ⟨fun _ => List.Perm.refl _, List.reverse_perm⟩

/-! ### C60 -/

theorem matchScore_bound {chroma : List (List F32)} {weights : Option (List F32)} {T : Templates}
    (hc : ChromaInput chroma weights) (hT : UnitTemplates T) (k : Key) :
    0 ≤ matchScore chroma T weights k ∧ matchScore chroma T weights k ≤ BIG := by
  cases k
  · exact raw_bound hc.rows hc.weights (hT.1 _)
  · exact raw_bound hc.rows hc.weights (hT.2 _)

theorem raw_eq (chroma : List (List F32)) (weights : Option (List F32)) (T : Templates) :
    rawScores chroma T weights = allKeys.map (fun k => (k, matchScore chroma T weights k)) := by
  unfold rawScores allKeys
  rw [List.map_append, List.map_map, List.map_map]; rfl

theorem raw_scored {chroma : List (List F32)} {weights : Option (List F32)} {T : Templates}
    (hc : ChromaInput chroma weights) (hT : UnitTemplates T) : Scored (rawScores chroma T weights) := by
  refine ⟨rawScores_fst _ _ _, ?_, ?_⟩
  all_goals
    intro p hp
    rw [raw_eq] at hp
    obtain ⟨k, _, rfl⟩ := List.mem_map.1 hp
  · exact (matchScore_bound hc hT k).1
  · exact (matchScore_bound hc hT k).2

theorem raw_mem {chroma : List (List F32)} {weights : Option (List F32)} {T : Templates} {p : Key × F32} :
    p ∈ rawScores chroma T weights ↔ ValidKey p.1 ∧ p.2 = matchScore chroma T weights p.1 := by
  rw [raw_eq, List.mem_map]
  constructor
  · rintro ⟨k, hk, rfl⟩; exact ⟨(validKey_iff k).2 hk, rfl⟩
  · rintro ⟨h1, h2⟩; exact ⟨p.1, (validKey_iff _).1 h1, by rw [← h2]⟩

/-- a bound of all refined scores: 1.25 times the bound of the raw ones -/
abbrev TOP : F32 := rnd (pow2 90 + pow2 88)

theorem topScore_le {m : F32} (h0 : 0 ≤ m) (hb : m ≤ BIG) : topScore m ≤ TOP := by
  unfold topScore
  have hf : m.isFinite = true := isFinite_of_between (by decide +kernel) (by decide +kernel) h0 hb
  have hc : (0 : F32) ≤ 0.20 * (1 - F32.ofInt 0 * 0.5) := by decide +kernel
  have hn : m * (0.20 * (1 - F32.ofInt 0 * 0.5)) ≠ nan := mul_fin_ne_nan hf (by decide +kernel)
  exact F32.le_trans (F32.add_le_add hb (F32.mul_le_mul_of_nonneg_right hb hc hn (by decide +kernel))
    (ne_nan_right (F32.add_nonneg h0 (F32.mul_nonneg h0 hc hn))) (by decide +kernel)) (by decide +kernel)

theorem refine_range {l : List (Key × F32)} (h : Scored l) {p : Key × F32} (hp : p ∈ refineScores l) :
    0 ≤ p.2 ∧ p.2 ≤ TOP := by
  have hlfin : ∀ q ∈ l, q.2.isFinite = true := fun q hq =>
    isFinite_of_between (by decide +kernel) (by decide +kernel) (h.lo q hq) (h.hi q hq)
  by_cases hm : 1e-9 < (topOf (isMajor p.1) l).2
  · obtain ⟨q, hq, rfl⟩ := mem_refine hp
    rw [refineOne_fst] at hm
    have hb := h.hi _ (h.top (isMajor q.1)).1
    have h0 := h.lo _ (h.top (isMajor q.1)).1
    have hq0 := h.lo q hq
    have hqm := (h.top (isMajor q.1)).2.2 q hq rfl
    have hfin := topScore_gt hm hb
    -- lower bound 0, upper bound the best score of the mode
    have hup : (refineOne (topOf (isMajor q.1) l) q).2 ≤ topScore (topOf (isMajor q.1) l).2 := by
      rcases (h.refined (isMajor q.1) hm).2 _ (refine_mem hq) (by rw [refineOne_fst]) with e | e
      · rw [e.2]; exact F32.le_refl (ne_nan_of_isFinite hfin.2)
      · exact F32.le_of_lt e.2
    have hlo : 0 ≤ (refineOne (topOf (isMajor q.1) l) q).2 := by
      unfold refineOne; dsimp only
      split_ifs with _ hd
      · refine F32.add_nonneg hq0 (F32.mul_nonneg h0 ?_ ?_)
        · have : ∀ d : ℤ, d ≤ 2 → 0 ≤ d → (0 : F32) ≤ 0.20 * (1 - F32.ofInt d * 0.5) := by
            intro d h1 h2; interval_cases d <;> decide +kernel
          refine this _ hd ?_
          have h1 := circlePos_lt (h.tonic hq)
          have h2 := circlePos_lt (h.tonic (h.top (isMajor q.1)).1)
          unfold circleDist
          have : |((circlePos (tonic q.1) : ℕ) : ℤ) - (circlePos (tonic (topOf (isMajor q.1) l).1) : ℕ)| ≤ 12 := by
            rw [_root_.abs_le]; constructor <;> omega
          exact _root_.le_min (_root_.abs_nonneg _) (by linarith)
        · apply mul_fin_ne_nan (hlfin _ (h.top _).1)
          have : ∀ d : ℤ, d ≤ 2 → 0 ≤ d → (0.20 * (1 - F32.ofInt d * 0.5) : F32).isFinite = true := by
            intro d h1 h2; interval_cases d <;> decide +kernel
          refine this _ hd ?_
          have h1 := circlePos_lt (h.tonic hq)
          have h2 := circlePos_lt (h.tonic (h.top (isMajor q.1)).1)
          unfold circleDist
          have : |((circlePos (tonic q.1) : ℕ) : ℤ) - (circlePos (tonic (topOf (isMajor q.1) l).1) : ℕ)| ≤ 12 := by
            rw [_root_.abs_le]; constructor <;> omega
          exact _root_.le_min (_root_.abs_nonneg _) (by linarith)
      all_goals exact hq0
    exact ⟨hlo, F32.le_trans hup (topScore_le h0 hb)⟩
  · have hu := Scored.unrefined _ hm hp rfl
    exact ⟨h.lo _ hu, F32.le_trans (h.hi _ hu) (by decide +kernel)⟩

theorem refine_finite {l : List (Key × F32)} (h : Scored l) {p : Key × F32} (hp : p ∈ refineScores l) :
    p.2.isFinite = true :=
  isFinite_of_between (by decide +kernel) (by decide +kernel) (refine_range h hp).1 (refine_range h hp).2

theorem norm_scored {l : List (Key × F32)} (h : Scored l) : Scored (normScores l) := by
  by_cases hc : 1e-9 < modeMax true l ∧ 1e-9 < modeMax false l
  · exact (h.norm hc.1 hc.2).1
  · unfold normScores; rw [if_neg hc]; exact h

/-- **C60**: on rows of twelve values in [0,1], with or without frame weights, key detection succeeds and reports a valid
key with finite scores and a confidence in [0,1]. -/
theorem C60_total (ord : List (Key × F32) → List (Key × F32)) (hord : ∀ l, (ord l).Perm l) (chroma : List (List F32))
    (weights : Option (List F32)) (T : Templates) (hc : ChromaInput chroma weights) (hT : UnitTemplates T) :
    ∃ r, detectKey ord chroma T weights = .ok r ∧ ValidKey r.key ∧ (∀ p ∈ r.all, p.2.isFinite = true) ∧
      0 ≤ r.conf ∧ r.conf ≤ 1 := by
  have hS := norm_scored (raw_scored hc hT)
  have hfin : ∀ p ∈ refineScores (normScores (rawScores chroma T weights)), p.2.isFinite = true := fun p hp => refine_finite hS hp
  have hok : ∃ r, detectKey ord chroma T weights = .ok r := by
    unfold detectKey
    rw [if_neg hc.ne, if_neg, if_neg]
    · unfold sortDescP
      rw [sortMeetsNaN_false (fun p hp => ne_nan_of_isFinite (hfin p hp))]
      exact ⟨_, rfl⟩
    · rcases weights with _ | w
      · simp
      · simp [hc.len w rfl]
    · rw [Bool.not_eq_true, List.any_eq_false]
      intro c hcm
      simp [(hc.rows c hcm).1]
  obtain ⟨r, hr⟩ := hok
  obtain ⟨h1, h2, h3⟩ := detectKey_all hr
  have hall := (detectKey_ok hr).2.1
  have hf : ∀ p ∈ r.all, p.2.isFinite = true := by
    intro p hp; rw [hall, mem_sortDesc] at hp; exact hfin p hp
  obtain ⟨s, o, _, m1, _⟩ := detect_spec hord hr
  refine ⟨r, hr, (validKey_iff _).2 (h1.mem_iff.1 (List.mem_map_of_mem m1)), hf, ?_⟩
  refine (C40_confidence ord hord chroma T weights r hr).2 (fun p hp he => ?_)
  have := hf p hp
  rw [he] at this; exact absurd this (by decide)

/-- non-vacuity: two frames with weights, the built-in templates -/
example : ChromaInput [[1, 0, 0, 0, 1, 0, 0, 1, 0, 0, 0, 0], [0, 0, 1, 0, 0, 0.5, 0, 0, 0, 1, 0, 0]] (some [1, 0.25]) ∧
    UnitTemplates krumhanslKessler ∧ UnitTemplates temperley := by
  refine ⟨⟨by simp, by decide +kernel, ?_, ?_⟩, ⟨by decide +kernel, by decide +kernel⟩, ⟨by decide +kernel, by decide +kernel⟩⟩
  · rintro w hw; cases hw; rfl
  · rintro w hw; cases hw; decide +kernel

/-- **C60**: outside the claim, a NaN in the chroma panics (line 246, `partial_cmp(..).unwrap()`), and an infinite frame
weight does too. -/
theorem C60_outside :
    detectKey id [[nan, 0, 0, 0, 0, 0, 0, 0, 0, 0, 0, 0]] krumhanslKessler none = R.panic ∧
    detectKey id [[1, 0, 0, 0, 0, 0, 0, 0, 0, 0, 0, 0]] krumhanslKessler (some [inf false]) = R.panic := by
  constructor <;> decide +kernel

/-! ### C58, C59 -/

/-- shape of the refined scores when both modes have a positive match -/
theorem both_modes {chroma : List (List F32)} {weights : Option (List F32)} {T : Templates}
    (hc : ChromaInput chroma weights) (hT : UnitTemplates T)
    (hM : 1e-9 < modeMax true (rawScores chroma T weights)) (hm : 1e-9 < modeMax false (rawScores chroma T weights)) :
    let L := refineScores (normScores (rawScores chroma T weights))
    ∃ kM km, isMajor kM = true ∧ isMajor km = false ∧ (kM, topScore 1) ∈ L ∧ (km, topScore 1) ∈ L ∧
      (∀ p ∈ L, p.1 ≠ kM → p.1 ≠ km → p.2 < topScore 1) ∧ (∀ p ∈ L, p.2 ≤ topScore 1) ∧
      (∀ k, ValidKey k → isMajor k = true → matchScore chroma T weights k ≤ matchScore chroma T weights kM) ∧
      (∀ k, ValidKey k → isMajor k = false → matchScore chroma T weights k ≤ matchScore chroma T weights km) := by
  intro L
  have hR := raw_scored hc hT
  obtain ⟨hS, hN⟩ := hR.norm hM hm
  have h1 : ∀ maj, 1e-9 < (topOf maj (normScores (rawScores chroma T weights))).2 := fun maj => by
    rw [(hN maj).1]; decide +kernel
  have hmode : ∀ maj, ∀ k, ValidKey k → isMajor k = maj →
      matchScore chroma T weights k ≤ matchScore chroma T weights (topOf maj (normScores (rawScores chroma T weights))).1 := by
    intro maj k hk hkm
    have h2 := (raw_mem.1 (hN maj).2).2
    rw [← h2, show (_, modeMax maj (rawScores chroma T weights)).2 = modeMax maj (rawScores chroma T weights) from rfl,
      hR.modeMax_eq]
    exact (hR.top maj).2.2 (k, matchScore chroma T weights k) (raw_mem.2 ⟨hk, rfl⟩) hkm
  have rM := hS.refined true (h1 true)
  have rm := hS.refined false (h1 false)
  rw [(hN true).1] at rM
  rw [(hN false).1] at rm
  refine ⟨_, _, (hS.top true).2.1, (hS.top false).2.1, rM.1, rm.1, ?_, ?_, hmode true, hmode false⟩
  · intro p hp h1 h2
    rcases hmaj : isMajor p.1 with _ | _
    · rcases rm.2 p hp hmaj with e | e
      · exact absurd e.1 h2
      · exact e.2
    · rcases rM.2 p hp hmaj with e | e
      · exact absurd e.1 h1
      · exact e.2
  · intro p hp
    have hself : topScore 1 ≤ topScore 1 := by decide +kernel
    rcases hmaj : isMajor p.1 with _ | _
    · rcases rm.2 p hp hmaj with e | e
      · rw [e.2]; exact hself
      · exact F32.le_of_lt e.2
    · rcases rM.2 p hp hmaj with e | e
      · rw [e.2]; exact hself
      · exact F32.le_of_lt e.2

theorem sameMode_iff (a b : Key) : SameMode a b ↔ isMajor b = isMajor a := by
  cases a <;> cases b <;> simp [SameMode, isMajor]

/-- **C58**: no key of the same mode has a template that matches the chroma better than the reported key's. -/
theorem C58_best_in_mode (ord : List (Key × F32) → List (Key × F32)) (hord : ∀ l, (ord l).Perm l) (chroma : List (List F32))
    (weights : Option (List F32)) (T : Templates) (hc : ChromaInput chroma weights) (hT : UnitTemplates T) (r : Res)
    (h : detectKey ord chroma T weights = .ok r) (k : Key) (hk : ValidKey k) (hm : SameMode r.key k) :
    matchScore chroma T weights k ≤ matchScore chroma T weights r.key := by
  rw [sameMode_iff] at hm
  have hR := raw_scored hc hT
  obtain ⟨s, o, _, m1, m2, _⟩ := detect_spec hord h
  have hall := (detectKey_ok h).2.1
  rw [hall, mem_sortDesc] at m1
  have m2' : ∀ p ∈ refineScores (normScores (rawScores chroma T weights)), p.2 ≤ s := by
    intro p hp; exact m2 p (by rw [hall, mem_sortDesc]; exact hp)
  by_cases hb : 1e-9 < modeMax true (rawScores chroma T weights) ∧ 1e-9 < modeMax false (rawScores chroma T weights)
  · obtain ⟨kM, km, h1, h2, h3, h4, h5, h6, h7, h8⟩ := both_modes hc hT hb.1 hb.2
    have hs : ¬ s < topScore 1 := not_lt_of_le (m2' _ h3)
    by_cases e1 : r.key = kM
    · rw [e1] at hm ⊢; exact h7 k hk (by rw [hm, h1])
    · by_cases e2 : r.key = km
      · rw [e2] at hm ⊢; exact h8 k hk (by rw [hm, h2])
      · exact absurd (h5 _ m1 e1 e2) hs
  · have hN : normScores (rawScores chroma T weights) = rawScores chroma T weights := by
      unfold normScores; rw [if_neg hb]
    rw [hN] at m1 m2'
    set l := rawScores chroma T weights with hl
    have hbest : ∀ maj, isMajor r.key = maj → ¬ 1e-9 < (topOf maj l).2 → ∀ q ∈ l, isMajor q.1 = maj → q.2 ≤ matchScore chroma T weights r.key := by
      intro maj hmaj hle q hq hqm
      have h1 := Scored.unrefined maj hle m1 hmaj
      have h2 := (raw_mem.1 h1).2
      dsimp only at h2
      rw [← h2]
      have h3 : q ∈ refineScores l := by
        have := refine_mem hq
        rw [hqm] at this
        rwa [show topOf maj l = ((topOf maj l).1, (topOf maj l).2) from rfl, show q = (q.1, q.2) from rfl, refine_same hle] at this
      exact m2' q h3
    have hkl : (k, matchScore chroma T weights k) ∈ l := raw_mem.2 ⟨hk, rfl⟩
    by_cases ht : 1e-9 < (topOf (isMajor r.key) l).2
    · have hr := hR.refined (isMajor r.key) ht
      rcases hr.2 _ m1 rfl with e | e
      · have h1 := (raw_mem.1 (hR.top (isMajor r.key)).1).2
        have h2 := (hR.top (isMajor r.key)).2.2 _ hkl hm
        dsimp only at e
        rw [h1, ← e.1] at h2
        exact h2
      · exact absurd e.2 (not_lt_of_le (m2' _ hr.1))
    · exact hbest _ rfl ht _ hkl hm

/-- non-vacuity: A minor wins over the other minor keys on the A minor profile -/
example : (match detectKey id [krumhanslKessler.getMinor 9] krumhanslKessler none with
    | .ok r => decide (r.key = .minor 9) | .error _ => false) = true ∧ SameMode (.minor 9) (.minor 4) :=
  ⟨by decide +kernel, trivial⟩

/-- **C59 violated**, for every ordinary input: as soon as some major and some minor template match the chroma at all, the
best major and the best minor key share the best score, so the confidence is exactly 0. -/
theorem C59_violated (ord : List (Key × F32) → List (Key × F32)) (hord : ∀ l, (ord l).Perm l) (chroma : List (List F32))
    (weights : Option (List F32)) (T : Templates) (hc : ChromaInput chroma weights) (hT : UnitTemplates T) (r : Res)
    (h : detectKey ord chroma T weights = .ok r)
    (hM : ∃ k, ValidKey (.major k) ∧ 1e-9 < matchScore chroma T weights (.major k))
    (hm : ∃ k, ValidKey (.minor k) ∧ 1e-9 < matchScore chroma T weights (.minor k)) :
    r.conf = 0 ∧ ∃ i j s, (.major i, s) ∈ r.all ∧ (.minor j, s) ∈ r.all ∧ (r.key = .major i ∨ r.key = .minor j) ∧
      ∀ p ∈ r.all, p.1 ≠ .major i → p.1 ≠ .minor j → p.2 < s := by
  have hR := raw_scored hc hT
  have hM' : 1e-9 < modeMax true (rawScores chroma T weights) := by
    obtain ⟨k, h1, h2⟩ := hM
    rw [hR.modeMax_eq]
    exact F32.lt_of_lt_of_le h2 ((hR.top true).2.2 (.major k, matchScore chroma T weights (.major k)) (raw_mem.2 ⟨h1, rfl⟩) rfl)
  have hm' : 1e-9 < modeMax false (rawScores chroma T weights) := by
    obtain ⟨k, h1, h2⟩ := hm
    rw [hR.modeMax_eq]
    exact F32.lt_of_lt_of_le h2 ((hR.top false).2.2 (.minor k, matchScore chroma T weights (.minor k)) (raw_mem.2 ⟨h1, rfl⟩) rfl)
  obtain ⟨kM, km, h1, h2, h3, h4, h5, h6, _⟩ := both_modes hc hT hM' hm'
  obtain ⟨s, o, _, m1, m2, ⟨k, hk, ho⟩, om, ec⟩ := detect_spec hord h
  have hall := (detectKey_ok h).2.1
  rw [hall] at m1 m2 ho om
  simp only [mem_sortDesc] at m1 m2 ho om
  have hs : s = topScore 1 := F32.le_antisymm (h6 _ m1) (m2 _ h3)
  have hkey : r.key = kM ∨ r.key = km := by
    by_contra hcon; push Not at hcon
    have := h5 _ m1 hcon.1 hcon.2
    rw [show ((r.key, s) : Key × F32).2 = s from rfl, hs] at this
    exact F32.lt_irrefl _ this
  have hne : kM ≠ km := by intro e; rw [e, h2] at h1; exact absurd h1 (by decide)
  have ho' : o = topScore 1 := by
    apply F32.le_antisymm (h6 _ ho)
    rcases hkey with e | e
    · exact om _ h4 (by rw [e]; exact hne.symm)
    · exact om _ h3 (by rw [e]; exact hne)
  refine ⟨by rw [ec, hs, ho']; decide +kernel, ?_⟩
  rcases kM with i | i
  · rcases km with j | j
    · simp [isMajor] at h2
    · refine ⟨i, j, topScore 1, ?_, ?_, hkey, ?_⟩
      · rw [hall, mem_sortDesc]; exact h3
      · rw [hall, mem_sortDesc]; exact h4
      · intro p hp; rw [hall, mem_sortDesc] at hp; exact h5 p hp
  · simp [isMajor] at h1

/-- non-vacuity: a single note already matches templates of both modes -/
example : 1e-9 < matchScore [[1, 0, 0, 0, 0, 0, 0, 0, 0, 0, 0, 0]] krumhanslKessler none (.major 0) ∧
    1e-9 < matchScore [[1, 0, 0, 0, 0, 0, 0, 0, 0, 0, 0, 0]] krumhanslKessler none (.minor 0) := by decide +kernel

/-- **C59 violated** (identification): under one hash seed the profile of A minor is reported as C major (and that of C
major as A minor under another, see `C41_violated`). -/
theorem C59_violated_profile :
    (match detectKey List.reverse [krumhanslKessler.getMinor 9] krumhanslKessler none with
      | .ok r => decide (r.key = .major 0) | _ => false) = true := by decide +kernel

end Verif.Props
