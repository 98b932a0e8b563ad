import Verif.Props.KeyMode
import Verif.Props.KeyEvidence
import Verif.Props.KeyClarity
import Verif.Props.KeyChanges
import Verif.F32.Scale

/-! Property theorems for claims C61 and C63: the ensemble, multi-scale and median variants of key detection. -/

namespace Verif.Props

open Verif Verif.Keys Verif.KeyDet F32

/-! ### specification -/

/-- what every variant promises about its ranking: all 24 keys once each, by non-increasing score, and the first three of
them as `top_keys` -/
structure Ranking (r : Res) : Prop where
  complete : Complete r.all
  sorted : r.all.Pairwise (fun a b => b.2 ≤ a.2)
  top : r.top = r.all.take 3

/-! ### lemmas -/

theorem detect_range {ord : List (Key × F32) → List (Key × F32)} {chroma : List (List F32)}
    {weights : Option (List F32)} {T : Templates} (hc : ChromaInput chroma weights) (hT : UnitTemplates T) {r : Res}
    (h : detectKey ord chroma T weights = .ok r) {p : Key × F32} (hp : p ∈ r.all) : 0 ≤ p.2 ∧ p.2 ≤ TOP := by
  rw [(detectKey_ok h).2.1, mem_sortDesc] at hp
  exact refine_range (norm_scored (raw_scored hc hT)) hp

theorem keys_of_map (f : Key → F32) : ((sortDesc Prod.snd (allKeys.map (fun k => (k, f k)))).map Prod.fst).Perm allKeys := by
  refine ((sortDesc_perm _).map _).trans ?_
  rw [List.map_map, show ((Prod.fst ∘ fun k => (k, f k)) : Key → Key) = id from rfl, List.map_id]

/-- the parts of a result built from a sorted list of all keys -/
theorem ranked_parts {l : List (Key × F32)} (hp : (l.map Prod.fst).Perm allKeys) (hb : ∀ p ∈ l, p.2 ≠ nan ∧ p.2 ≠ inf false)
    (hs : l.Pairwise (fun a b => b.2 ≤ a.2)) :
    ∃ b : Key × F32, ∃ s : F32, l.getD 0 (.major 0, 0) = b ∧ (l.getD 1 (.major 0, 0)).2 = s ∧ b ∈ l ∧ l.head? = some b ∧
      (∀ p ∈ l, p.2 ≤ b.2) ∧ 0 ≤ margin b.2 s ∧ margin b.2 s ≤ 1 := by
  have hl : l.length = 24 := by
    have := hp.length_eq; rw [List.length_map] at this; exact this.trans (by decide +kernel)
  match l, hl with
  | b :: c :: l, _ =>
    have hcn : c.2 ≠ nan := (hb c (by simp)).1
    refine ⟨b, c.2, rfl, rfl, by simp, rfl, ?_, ?_⟩
    · intro p hp
      rcases List.mem_cons.1 hp with rfl | hp
      · exact F32.le_refl (hb _ (by simp)).1
      · exact (List.pairwise_cons.1 hs).1 p hp
    · rcases margin_unit (s := b.2) (o := c.2) (hb b (by simp)).2 with h | h
      · exact h
      · exact absurd h hcn

theorem unitTemplates_builtin : UnitTemplates krumhanslKessler ∧ UnitTemplates temperley :=
  ⟨⟨by decide +kernel, by decide +kernel⟩, ⟨by decide +kernel, by decide +kernel⟩⟩

/-- a share of a total of two finite non-negative weights is in [0,1] -/
theorem share_unit {a b : F32} (ha0 : 0 ≤ a) (ha : a ≤ rnd (pow2 60)) (hb0 : 0 ≤ b) (hb : b ≤ rnd (pow2 60)) :
    (0 ≤ (if 1e-9 < a + b then a / (a + b) else 0.5 : F32) ∧ (if 1e-9 < a + b then a / (a + b) else 0.5 : F32) ≤ 1) ∧
    0 ≤ (if 1e-9 < a + b then b / (a + b) else 0.5 : F32) ∧ (if 1e-9 < a + b then b / (a + b) else 0.5 : F32) ≤ 1 := by
  have hn := F32.add_nonneg ha0 hb0
  have hs : a + b ≤ rnd (pow2 61) :=
    F32.le_trans (F32.add_le_add ha hb (ne_nan_right hn) (by decide +kernel)) (by decide +kernel)
  have hf : (a + b).isFinite = true := isFinite_of_between (by decide +kernel) (by decide +kernel) hn hs
  have hfa : a.isFinite = true := isFinite_of_between (by decide +kernel) (by decide +kernel) ha0 ha
  have hfb : b.isFinite = true := isFinite_of_between (by decide +kernel) (by decide +kernel) hb0 hb
  split_ifs with h
  · have hp : 0 < a + b := F32.lt_trans (by decide +kernel) h
    exact ⟨F32.div_le_one ha0 (F32.le_add_right ha0 hb0) hp hf, F32.div_le_one hb0 (by rw [F32.add_comm]; exact F32.le_add_right hb0 ha0) hp hf⟩
  · exact ⟨⟨by decide +kernel, by decide +kernel⟩, by decide +kernel, by decide +kernel⟩

theorem scale_down {n x : F32} (hn0 : 0 ≤ n) (hn1 : n ≤ 1) (h0 : 0 ≤ x) (h1 : x ≤ TOP) : 0 ≤ n * x ∧ n * x ≤ TOP := by
  have hfx : x.isFinite = true := isFinite_of_between (by decide +kernel) (by decide +kernel) h0 h1
  have hfn : n.isFinite = true := isFinite_of_between (by decide +kernel) (by decide +kernel) hn0 hn1
  have hnn := mul_fin_ne_nan hfn hfx
  refine ⟨F32.mul_nonneg hn0 h0 hnn, ?_⟩
  refine F32.le_trans (F32.mul_le_mul_of_nonneg_right hn1 h0 hnn (mul_fin_ne_nan (by decide +kernel) hfx)) ?_
  exact F32.le_trans (F32.mul_le_mul_of_nonneg_left h1 (by decide +kernel) (mul_fin_ne_nan (by decide +kernel) hfx) (by decide +kernel))
    (by decide +kernel)

/-- **C61** (ensemble): on ordinary chroma and weights the ensemble of the two built-in template families returns a full
ranking with finite scores; the reported key is ranked first and the confidence is in [0,1]. -/
theorem C61_ensemble (ord1 ord2 : List (Key × F32) → List (Key × F32)) (h1 : ∀ l, (ord1 l).Perm l) (h2 : ∀ l, (ord2 l).Perm l)
    (chroma : List (List F32)) (weights : Option (List F32)) (hc : ChromaInput chroma weights) (wKK wTemp : F32)
    (k0 : 0 ≤ wKK) (k1 : wKK ≤ rnd (pow2 60)) (t0 : 0 ≤ wTemp) (t1 : wTemp ≤ rnd (pow2 60)) :
    ∃ r, detectEnsemble ord1 ord2 chroma weights wKK wTemp = .ok r ∧ Ranking r ∧ ValidKey r.key ∧
      (∀ p ∈ r.all, p.2.isFinite = true) ∧ (∃ s, r.all.head? = some (r.key, s)) ∧ 0 ≤ r.conf ∧ r.conf ≤ 1 := by
  obtain ⟨kk, ekk, -⟩ := C60_total ord1 h1 chroma weights krumhanslKessler hc unitTemplates_builtin.1
  obtain ⟨te, ete, -⟩ := C60_total ord2 h2 chroma weights temperley hc unitTemplates_builtin.2
  obtain ⟨⟨a0, a1⟩, b0, b1⟩ := share_unit k0 k1 t0 t1
  unfold detectEnsemble
  dsimp only
  rw [ekk, ete]
  generalize (if 1e-9 < wKK + wTemp then wKK / (wKK + wTemp) else 0.5 : F32) = nKK at a0 a1 ⊢
  generalize (if 1e-9 < wKK + wTemp then wTemp / (wKK + wTemp) else 0.5 : F32) = nTe at b0 b1 ⊢
  refine ⟨_, rfl, ?_⟩
  dsimp only
  generalize hl : sortDesc Prod.snd (allKeys.map (fun k => (k, nKK * lookupLast kk.all k + nTe * lookupLast te.all k))) = l
  have hperm : (l.map Prod.fst).Perm allKeys := by rw [← hl]; exact keys_of_map _
  have hbd : ∀ p ∈ l, 0 ≤ p.2 ∧ p.2 ≤ rnd (pow2 91 + pow2 89) := by
    intro p hp
    rw [← hl, mem_sortDesc] at hp
    obtain ⟨k, hk, rfl⟩ := List.mem_map.1 hp
    have r1 := detect_range hc unitTemplates_builtin.1 ekk (modeScore_mem ((detectKey_all ekk).1.mem_iff.2 hk))
    have r2 := detect_range hc unitTemplates_builtin.2 ete (modeScore_mem ((detectKey_all ete).1.mem_iff.2 hk))
    have s1 := scale_down a0 a1 r1.1 r1.2
    have s2 := scale_down b0 b1 r2.1 r2.2
    have hn := F32.add_nonneg s1.1 s2.1
    exact ⟨hn, F32.le_trans (F32.add_le_add s1.2 s2.2 (ne_nan_right hn) (by decide +kernel)) (by decide +kernel)⟩
  have hfin : ∀ p ∈ l, p.2.isFinite = true := fun p hp =>
    isFinite_of_between (by decide +kernel) (by decide +kernel) (hbd p hp).1 (hbd p hp).2
  have hsort : l.Pairwise (fun a b => b.2 ≤ a.2) := by
    rw [← hl]; apply sortDesc_pairwise
    intro a ha
    exact ne_nan_of_isFinite (hfin a (by rw [← hl, mem_sortDesc]; exact ha))
  obtain ⟨b, s, e1, e2, e3, e4, -, e6⟩ := ranked_parts hperm
    (fun p hp => ⟨ne_nan_right (hbd p hp).1, fun e => by have := hfin p hp; rw [e] at this; exact absurd this (by decide)⟩) hsort
  rw [e1, e2]
  exact ⟨⟨complete_of_perm hperm, hsort, rfl⟩, (validKey_iff _).2 (hperm.mem_iff.1 (List.mem_map_of_mem e3)), hfin, ⟨b.2, e4⟩, e6⟩

/-- non-vacuity: the default weights of the ensemble -/
example : (0 : F32) ≤ 0.5 ∧ (0.5 : F32) ≤ rnd (pow2 60) := by decide +kernel

/-! ### multi-scale -/

theorem window_input {chroma : List (List F32)} {weights : Option (List F32)} (hc : ChromaInput chroma weights) {s len : ℕ}
    (hl : 0 < len) (hs : s + len ≤ chroma.length) : ChromaInput ((chroma.drop s).take len) (segWeights weights s len) := by
  have hlen : ((chroma.drop s).take len).length = len := by rw [List.length_take, List.length_drop]; omega
  refine ⟨?_, fun c hcm => hc.rows c (List.mem_of_mem_drop (List.mem_of_mem_take hcm)), ?_, ?_⟩
  · intro e; rw [e] at hlen; simp at hlen; omega
  · intro w hw
    rcases weights with _ | v
    · simp [segWeights] at hw
    · simp only [segWeights, Option.bind_some] at hw
      split_ifs at hw with h
      cases hw
      rw [hlen, List.length_take, List.length_drop]; omega
  · intro w hw
    rcases weights with _ | v
    · simp [segWeights] at hw
    · simp only [segWeights, Option.bind_some] at hw
      split_ifs at hw with h
      cases hw
      exact fun x hx => hc.weights v rfl x (List.mem_of_mem_drop (List.mem_of_mem_take hx))

/-- what a detection without the harmonic-minor bonus delivers on ordinary input -/
structure Detected (r : Res) : Prop where
  keys : (r.all.map Prod.fst).Perm allKeys
  sorted : r.all.Pairwise (fun a b => b.2 ≤ a.2)
  range : ∀ p ∈ r.all, 0 ≤ p.2 ∧ p.2 ≤ TOP
  valid : ValidKey r.key
  listed : ∃ s, (r.key, s) ∈ r.all ∧ (r.key, s) ∈ r.top
  conf : 0 ≤ r.conf ∧ r.conf ≤ 1

theorem detectKey_detected {ord : List (Key × F32) → List (Key × F32)} (hord : ∀ l, (ord l).Perm l) {chroma : List (List F32)}
    {weights : Option (List F32)} {T : Templates} (hc : ChromaInput chroma weights) (hT : UnitTemplates T) :
    ∃ r, detectKey ord chroma T weights = .ok r ∧ Detected r := by
  obtain ⟨r, h, hv, hf, hu⟩ := C60_total ord hord chroma weights T hc hT
  obtain ⟨h1, h2, h3⟩ := detectKey_all h
  obtain ⟨s, o, m0, m1, _⟩ := detect_spec hord h
  exact ⟨r, h, h1, h3, fun p hp => detect_range hc hT h hp, hv, ⟨s, m1, m0⟩, hu⟩

/-! ### the harmonic-minor bonus -/

/-- finite, of magnitude at most `B` -/
def Within (B : ℚ) (x : F32) : Prop := ∃ v hv, x = fin v hv ∧ |v| ≤ B

theorem within_iff {B : ℚ} (hB : OnGrid B ∧ |B| < pow2 128) (x : F32) : Within B x ↔ -fin B hB ≤ x ∧ x ≤ fin B hB := by
  constructor
  · rintro ⟨v, hv, rfl, h⟩
    rw [neg_fin]
    exact ⟨fin_le_fin.2 (abs_le.1 h).1, fin_le_fin.2 (abs_le.1 h).2⟩
  · rintro ⟨h1, h2⟩
    rw [neg_fin] at h1
    obtain ⟨v, hv, e, a, b⟩ := between_cases h1 h2
    exact ⟨v, hv, e, abs_le.2 ⟨a, b⟩⟩

theorem Within.ne_nan {B : ℚ} {x : F32} (h : Within B x) : x ≠ nan := by
  obtain ⟨v, hv, rfl, -⟩ := h; exact F32.noConfusion

theorem Within.ne_inf {B : ℚ} {x : F32} (h : Within B x) (b : Bool) : x ≠ inf b := by
  obtain ⟨v, hv, rfl, -⟩ := h; exact F32.noConfusion

theorem Within.mono {B C : ℚ} {x : F32} (h : Within B x) (hBC : B ≤ C) : Within C x := by
  obtain ⟨v, hv, e, h⟩ := h; exact ⟨v, hv, e, le_trans h hBC⟩

theorem Within.mul {B C D : ℚ} {x y : F32} (hD : OnGrid D ∧ |D| < pow2 128) (hBC : B * C ≤ D) (h : Within B x) (h' : Within C y) :
    Within D (x * y) := by
  obtain ⟨v, hv, rfl, h⟩ := h
  obtain ⟨u, hu, rfl, h'⟩ := h'
  have hq : |v * u| ≤ D := by
    rw [_root_.abs_mul]
    exact le_trans (_root_.mul_le_mul h h' (abs_nonneg _) (le_trans (abs_nonneg _) h)) hBC
  obtain ⟨hr, e, hb⟩ := rnd_finite_of_abs_le hD hq
  exact ⟨_, hr, by rw [mul_fin, e], hb⟩

theorem Within.add {B C D : ℚ} {x y : F32} (hD : OnGrid D ∧ |D| < pow2 128) (hBC : B + C ≤ D) (h : Within B x) (h' : Within C y) :
    Within D (x + y) := by
  obtain ⟨v, hv, rfl, h⟩ := h
  obtain ⟨u, hu, rfl, h'⟩ := h'
  obtain ⟨hr, e, hb⟩ := rnd_finite_of_abs_le hD (le_trans (abs_add_le v u) (le_trans (add_le_add h h') hBC))
  exact ⟨_, hr, by rw [add_fin, e], hb⟩

theorem grid_pow2 {k : ℤ} (h0 : 0 ≤ k) (h1 : k < 128) : OnGrid (pow2 k) ∧ |pow2 k| < pow2 128 :=
  ⟨onGrid_pow2 (by omega), by rw [abs_of_pos (pow2_pos _)]; exact pow2_lt h1⟩

theorem within_of_le {k : ℤ} (h0 : 0 ≤ k) (h1 : k < 128) {x : F32} (a : 0 ≤ x) (b : x ≤ rnd (pow2 k)) : Within (pow2 k) x := by
  rw [rnd_val (grid_pow2 h0 h1)] at b
  rw [zero_def] at a
  obtain ⟨v, hv, e, v0, v1⟩ := between_cases a b
  exact ⟨v, hv, e, by rwa [abs_of_nonneg v0]⟩

/-- sums of terms up to `t` never get past a number `T` so large that adding `t` no longer changes it -/
theorem fold_sat {T t : F32} (hT : T + t ≤ T) : ∀ (l : List F32) (a : F32), 0 ≤ a → a ≤ T → (∀ x ∈ l, 0 ≤ x ∧ x ≤ t) →
    0 ≤ l.foldl (· + ·) a ∧ l.foldl (· + ·) a ≤ T
  | [], _, a0, a1, _ => ⟨a0, a1⟩
  | x :: l, a, a0, a1, h => by
    obtain ⟨x0, x1⟩ := h x (by simp)
    have hs := F32.add_nonneg a0 x0
    rw [List.foldl_cons]
    exact fold_sat hT l (a + x) hs (F32.le_trans (F32.add_le_add a1 x1 (ne_nan_right hs) (ne_nan_left hT)) hT)
      (fun y hy => h y (by simp [hy]))

theorem sat84 : rnd (pow2 84) + rnd (pow2 60) ≤ rnd (pow2 84) := by decide +kernel

theorem classTotal_le {chroma : List (List F32)} {weights : Option (List F32)} (hc : ChromaInput chroma weights) (j : ℕ) :
    classTotal chroma weights j ≤ rnd (pow2 84) := by
  have h0 : (0 : F32) ≤ 0 := by decide +kernel
  have hx : ∀ c ∈ chroma, 0 ≤ c.getD j 0 ∧ c.getD j 0 ≤ 1 := by
    intro c hc'
    rw [List.getD_eq_getElem?_getD]
    rcases e : c[j]? with _ | x
    · exact ⟨h0, by decide +kernel⟩
    · exact (hc.rows c hc').2 x (List.mem_of_getElem? e)
  unfold classTotal
  rcases weights with _ | w
  · refine (fold_sat sat84 _ 0 h0 (by decide +kernel) (fun x h => ?_)).2
    obtain ⟨c, h1, rfl⟩ := List.mem_map.1 h
    exact ⟨(hx c h1).1, F32.le_trans (hx c h1).2 (by decide +kernel)⟩
  · refine (fold_sat sat84 _ 0 h0 (by decide +kernel) (fun x h => ?_)).2
    obtain ⟨p, hp, rfl⟩ := List.mem_map.1 h
    have hp := List.of_mem_zip (List.mem_filter.1 hp).1
    have hw := hc.weights w rfl _ hp.2
    have hfw : p.2.isFinite = true := isFinite_of_between (by decide +kernel) (by decide +kernel) hw.1 hw.2
    have hm := mul_le_of_le_one hw.1 (hx _ hp.1).1 (hx _ hp.1).2 hfw
    exact ⟨hm.1, F32.le_trans hm.2 hw.2⟩

/-- the sum of the frame weights: at most 2^84 (a longer sum no longer grows) -/
theorem weightSum_le {chroma : List (List F32)} {weights : Option (List F32)} (hc : ChromaInput chroma weights)
    (hn : chroma.length ≤ 2 ^ 64) : 0 ≤ (chromaSum chroma weights).2 ∧ (chromaSum chroma weights).2 ≤ rnd (pow2 84) := by
  unfold chromaSum
  rcases weights with _ | w
  · have h1 : F32.ofNat chroma.length ≤ F32.ofNat (2 ^ 64) := ofNat_mono hn
    exact ⟨ofNat_nonneg _, F32.le_trans h1 (by decide +kernel)⟩
  · dsimp only
    have : ∀ (l : List (List F32 × F32)) (a : List F32) (b : F32), (∀ p ∈ l, 0 ≤ p.2 ∧ p.2 ≤ rnd (pow2 60)) → 0 ≤ b →
        b ≤ rnd (pow2 84) →
        0 ≤ (l.foldl (fun acc p => if p.2 ≤ 0 then acc else (addRow acc.1 (p.1.map (fun x => p.2 * x)), acc.2 + p.2)) (a, b)).2 ∧
        (l.foldl (fun acc p => if p.2 ≤ 0 then acc else (addRow acc.1 (p.1.map (fun x => p.2 * x)), acc.2 + p.2)) (a, b)).2 ≤
          rnd (pow2 84) := by
      intro l
      induction l with
      | nil => intro a b _ b0 b1; exact ⟨b0, b1⟩
      | cons p l ih =>
        intro a b hl b0 b1
        have hl' : ∀ p ∈ l, 0 ≤ p.2 ∧ p.2 ≤ rnd (pow2 60) := fun q hq => hl q (by simp [hq])
        rw [List.foldl_cons]
        by_cases h : p.2 ≤ 0
        · rw [if_pos h]; exact ih a b hl' b0 b1
        · rw [if_neg h]
          obtain ⟨p0, p1⟩ := hl p (by simp)
          have hs := F32.add_nonneg b0 p0
          exact ih _ _ hl' hs (F32.le_trans (F32.add_le_add b1 p1 (ne_nan_right hs) (by decide +kernel)) sat84)
    exact this _ _ _ (fun p hp => hc.weights w rfl _ (List.of_mem_zip hp).2) (by decide +kernel) (by decide +kernel)

theorem chromaSum_length {chroma : List (List F32)} {weights : Option (List F32)} (hc : ∀ c ∈ chroma, c.length = 12) :
    (chromaSum chroma weights).1.length = 12 := by
  unfold chromaSum
  rcases weights with _ | w
  · dsimp only
    have : ∀ (l : List (List F32)) (a : List F32), (∀ c ∈ l, c.length = 12) → a.length = 12 → (l.foldl addRow a).length = 12 := by
      intro l
      induction l with
      | nil => intro a _ h; exact h
      | cons x l ih => intro a hl ha; exact ih _ (fun c hc => hl c (by simp [hc])) (addRow_length ha (hl x (by simp)))
    exact this _ _ hc (by simp)
  · dsimp only
    have : ∀ (l : List (List F32 × F32)) (a : List F32 × F32), (∀ c ∈ l, c.1.length = 12) → a.1.length = 12 →
        (l.foldl (fun acc p => if p.2 ≤ 0 then acc else (addRow acc.1 (p.1.map (fun x => p.2 * x)), acc.2 + p.2)) a).1.length = 12 := by
      intro l
      induction l with
      | nil => intro a _ h; exact h
      | cons x l ih =>
        intro a hl ha
        have hl' : ∀ c ∈ l, c.1.length = 12 := fun c hc => hl c (by simp [hc])
        rw [List.foldl_cons]
        split_ifs
        · exact ih _ hl' ha
        · exact ih _ hl' (addRow_length ha (by simpa using hl x (by simp)))
    exact this _ _ (fun p hp => hc _ (List.of_mem_zip hp).1) (by simp)

/-- the averaged chroma lies in [0,1] -/
theorem chromaAvg_unit {chroma : List (List F32)} {weights : Option (List F32)} (hc : ChromaInput chroma weights) :
    ∀ x ∈ chromaAvg (chromaSum chroma weights).1, 0 ≤ x ∧ x ≤ 1 := by
  have hlen := chromaSum_length (weights := weights) (fun c h => (hc.rows c h).1)
  have hs : ∀ x ∈ (chromaSum chroma weights).1, 0 ≤ x ∧ x ≤ rnd (pow2 84) := by
    intro x hx
    obtain ⟨j, hj, rfl⟩ := List.mem_iff_getElem.1 hx
    have e := chromaSum_class (weights := weights) (fun c h => (hc.rows c h).1) (j := j) (by omega)
    rw [List.getD_eq_getElem?_getD, List.getElem?_eq_getElem hj] at e
    rw [show (chromaSum chroma weights).1[j] = classTotal chroma weights j from e]
    exact ⟨classTotal_nonneg hc j, classTotal_le hc j⟩
  generalize (chromaSum chroma weights).1 = s at hlen hs
  have hle : ∀ x ∈ s, x ≤ F32.sum s := fun x hx => F32.le_sum (fun y hy => (hs y hy).1) hx
  have hfin : F32.sum s ≤ rnd (pow2 108) := by
    refine (fold_sat (T := rnd (pow2 108)) (t := rnd (pow2 84)) (by decide +kernel) s 0 (by decide +kernel) (by decide +kernel) hs).2
  have hnn : 0 ≤ F32.sum s := F32.sum_nonneg (fun y hy => (hs y hy).1)
  unfold chromaAvg
  dsimp only
  split_ifs with ht
  · intro x hx
    obtain ⟨y, hy, rfl⟩ := List.mem_map.1 hx
    exact F32.div_le_one (hs y hy).1 (hle y hy) (F32.lt_trans (by decide +kernel) ht)
      (isFinite_of_between (by decide +kernel) (by decide +kernel) hnn hfin)
  · intro x hx
    have ht' := F32.le_of_not_lt (ne_nan_right hnn) (by decide +kernel) ht
    exact ⟨(hs x hx).1, F32.le_trans (hle x hx) (F32.le_trans ht' (by decide +kernel))⟩

/-- the bonus keeps scores up to 2^90 + 2^88 within ±2^91, for bonus weights up to 16 -/
theorem minorBonus_within {chroma : List (List F32)} {weights : Option (List F32)} (hc : ChromaInput chroma weights) {bonus : Bool}
    {bw : F32} (hb : bonus = true → F32.max bw 0 ≤ 16 ∧ chroma.length ≤ 2 ^ 64) {l : List (Key × F32)}
    (hl : ∀ p ∈ l, 0 ≤ p.2 ∧ p.2 ≤ TOP) :
    ∀ p ∈ minorBonus bonus bw (chromaSum chroma weights).2 (chromaAvg (chromaSum chroma weights).1) l, Within (pow2 91) p.2 := by
  obtain ⟨hT, eT⟩ : ∃ h, TOP = fin (pow2 90 + pow2 88) h := ⟨by decide +kernel, by decide +kernel⟩
  have hbase : ∀ p ∈ l, Within (pow2 90 + pow2 88) p.2 := by
    intro p hp
    have h := hl p hp
    rw [eT, zero_def] at h
    obtain ⟨z, hz, ez, z0, z1⟩ := between_cases h.1 h.2
    exact ⟨z, hz, ez, by rwa [abs_of_nonneg z0]⟩
  have hbase' : ∀ p ∈ l, Within (pow2 91) p.2 := fun p hp => (hbase p hp).mono (by decide +kernel)
  unfold minorBonus
  dsimp only
  split_ifs with h
  swap
  · exact hbase'
  simp only [Bool.and_eq_true, decide_eq_true_eq] at h
  obtain ⟨hw, hn⟩ := hb h.1
  have hw0 : 0 ≤ F32.max bw 0 := F32.le_max_right (by decide +kernel)
  obtain ⟨s0, s1⟩ := weightSum_le hc hn
  have hav : ∀ j, 0 ≤ (chromaAvg (chromaSum chroma weights).1).getD j 0 ∧ (chromaAvg (chromaSum chroma weights).1).getD j 0 ≤ 1 := by
    intro j
    rw [List.getD_eq_getElem?_getD]
    rcases e : (chromaAvg (chromaSum chroma weights).1)[j]? with _ | x
    · show 0 ≤ (0 : F32) ∧ (0 : F32) ≤ 1
      decide +kernel
    · exact chromaAvg_unit hc x (List.mem_of_getElem? e)
  have W1 : Within (pow2 84) (chromaSum chroma weights).2 := within_of_le (by norm_num) (by norm_num) s0 s1
  have W2 : Within (pow2 4) (F32.max bw 0) :=
    within_of_le (by norm_num) (by norm_num) hw0 (F32.le_trans hw (by decide +kernel))
  have W3 := Within.mul (grid_pow2 (k := 88) (by norm_num) (by norm_num)) (by rw [← pow2_add]; exact le_of_eq rfl) W1 W2
  intro p hp
  obtain ⟨q, hq, rfl⟩ := List.mem_map.1 hp
  rcases hk : q.1 with t | t
  · exact hbase' q hq
  · dsimp only
    obtain ⟨a0, a1⟩ := hav ((t + 11) % 12)
    obtain ⟨b0, b1⟩ := hav ((t + 10) % 12)
    generalize (chromaAvg (chromaSum chroma weights).1).getD ((t + 11) % 12) 0 = a at a0 a1 ⊢
    generalize (chromaAvg (chromaSum chroma weights).1).getD ((t + 10) % 12) 0 = b at b0 b1 ⊢
    have hd : Within 1 (a - b) := by
      rw [zero_def, one_def] at *
      obtain ⟨x, hx, rfl, x0, x1⟩ := between_cases a0 a1
      obtain ⟨y, hy, rfl, y0, y1⟩ := between_cases b0 b1
      obtain ⟨hr, e, hb⟩ := rnd_finite_of_abs_le (q := x - y) (b := 1) (by decide +kernel) (abs_le.2 ⟨by linarith, by linarith⟩)
      exact ⟨_, hr, by rw [sub_fin, e], hb⟩
    have W4 := Within.mul (grid_pow2 (k := 88) (by norm_num) (by norm_num)) (by rw [mul_one]) W3 hd
    exact Within.add (grid_pow2 (k := 91) (by norm_num) (by norm_num)) (by decide +kernel) (hbase q hq) W4

/-- what a detection delivers on ordinary input, with or without the harmonic-minor bonus -/
structure Reported (r : Res) : Prop where
  keys : (r.all.map Prod.fst).Perm allKeys
  sorted : r.all.Pairwise (fun a b => b.2 ≤ a.2)
  range : ∀ p ∈ r.all, Within (pow2 91) p.2
  valid : ValidKey r.key
  listed : ∃ s, (r.key, s) ∈ r.all ∧ (r.key, s) ∈ r.top
  conf : 0 ≤ r.conf ∧ r.conf ≤ 1

theorem Detected.reported {r : Res} (h : Detected r) : Reported r := by
  refine ⟨h.keys, h.sorted, fun p hp => ?_, h.valid, h.listed, h.conf⟩
  exact within_of_le (by norm_num) (by norm_num) (h.range p hp).1 (F32.le_trans (h.range p hp).2 (by decide +kernel))

theorem reported_clarity {r : Res} (hr : Reported r) : ∃ q, keyClarity r.all = .ok q ∧ 0 ≤ q ∧ q ≤ 1 := by
  refine C43_range_partial r.all (fun p hp => ?_)
  have h := (within_iff (grid_pow2 (by norm_num) (by norm_num)) _).1 ((hr.range p hp).mono (C := pow2 100) (by decide +kernel))
  rw [rnd_val (grid_pow2 (k := 100) (by norm_num) (by norm_num))]
  exact h

theorem detectWith_reported {ord : List (Key × F32) → List (Key × F32)} (hord : ∀ l, (ord l).Perm l) {chroma : List (List F32)}
    {weights : Option (List F32)} {T : Templates} (hc : ChromaInput chroma weights) (hT : UnitTemplates T) (modeOn : Bool)
    (tm fm : F32) (bonus : Bool) (bw : F32) (hb : bonus = true → F32.max bw 0 ≤ 16 ∧ chroma.length ≤ 2 ^ 64) :
    ∃ r, detectWith ord chroma T weights modeOn tm fm bonus bw = .ok r ∧ Reported r := by
  obtain ⟨base, hba, hd⟩ := detectKey_detected hord hc hT
  unfold detectWith
  by_cases hm : (modeOn || bonus) = true
  swap
  · rw [if_neg hm]; exact ⟨base, hba, hd.reported⟩
  rw [if_pos hm]
  generalize (if modeOn = true then fm else 0) = fm'
  have hok : ∃ r, detectKeyMode ord chroma T weights tm fm' bonus bw = .ok r := by
    unfold detectKeyMode
    rw [hba]
    simp only [bind, Except.bind, pure, Except.pure]
    split_ifs <;> exact ⟨_, rfl⟩
  obtain ⟨r, hr⟩ := hok
  obtain ⟨_, hv, _, ⟨s, hs1, hs2⟩, _⟩ := C42_flip_partial ord hord chroma T weights tm fm' bonus bw r hr
  have hrange : ∀ p ∈ r.all, Within (pow2 91) p.2 := by
    obtain ⟨base', hb', e | ⟨e1, _⟩⟩ := mode_ok hr
    · rw [hba] at hb'; cases hb'; subst e; exact hd.reported.range
    · rw [hba] at hb'; cases hb'
      intro p hp
      rw [e1, mem_sortDesc] at hp
      exact minorBonus_within hc hb hd.range p hp
  refine ⟨r, hr, mode_keys hr, ?_, hrange, hv, ⟨s, hs1, hs2⟩, ?_⟩
  · obtain ⟨base', hb', e | ⟨e1, _⟩⟩ := mode_ok hr
    · rw [hba] at hb'; cases hb'; subst e; exact hd.sorted
    · rw [e1]; apply sortDesc_pairwise
      intro a ha
      exact (hrange a (by rw [e1, mem_sortDesc]; exact ha)).ne_nan
  · exact C42_confidence_partial ord hord chroma T weights tm fm' bonus bw r hr (fun p hp => (hrange p hp).ne_inf _)

/-! ### accumulation over segments -/

/-- adding the scores of a ranking to the accumulated ones, key by key -/
theorem fold_add (w : F32) : ∀ (l a : List (Key × F32)), (l.map Prod.fst).Nodup →
    l.foldl (fun a p => a.map (fun q => if q.1 = p.1 then (q.1, q.2 + p.2 * w) else q)) a =
    a.map (fun q => match l.find? (fun p => decide (p.1 = q.1)) with
      | some p => (q.1, q.2 + p.2 * w)
      | none => q)
  | [], a, _ => by simp
  | p :: l, a, h => by
    rw [List.map_cons, List.nodup_cons] at h
    rw [List.foldl_cons, fold_add w l _ h.2, List.map_map]
    apply List.map_congr_left
    intro q _
    simp only [Function.comp]
    by_cases e : q.1 = p.1
    · simp only [if_pos e]
      have hnone : l.find? (fun x => decide (x.1 = q.1)) = none := by
        rw [List.find?_eq_none]
        intro x hx hx'
        have hx' : x.1 = q.1 := by simpa using hx'
        exact h.1 (by rw [← e, ← hx']; exact List.mem_map_of_mem hx)
      rw [hnone, List.find?_cons_of_pos (by simpa using e.symm)]
    · simp only [if_neg e]
      rw [List.find?_cons_of_neg (by simpa using Ne.symm e)]

/-- the accumulated scores stay within 2^91 times the accumulated weight -/
structure AccInv (acc : Acc) : Prop where
  keys : acc.scores.map Prod.fst = allKeys
  weight : ∃ w hw, acc.weight = fin w hw ∧ 0 ≤ w ∧ w ≤ pow2 34 ∧
    ∀ q ∈ acc.scores, Within (pow2 91 * w) q.2

theorem weight_step {w c : ℚ} (h0 : 0 ≤ w) (h1 : w ≤ pow2 34) (c0 : 0 ≤ c) (c1 : c ≤ pow2 10) :
    ∃ h, rnd (w + c) = fin (rndQ (w + c)) h ∧ 0 ≤ rndQ (w + c) ∧ rndQ (w + c) ≤ pow2 34 := by
  have hg : ∃ h, rnd (pow2 34 + pow2 10) = fin (pow2 34) h := ⟨by decide +kernel, by decide +kernel⟩
  obtain ⟨hg, eg⟩ := hg
  have hq : rndQ (w + c) ≤ pow2 34 := by
    refine le_trans (rndQ_mono (add_le_add h1 c1)) (le_of_eq ?_)
    decide +kernel
  have hn : 0 ≤ rndQ (w + c) := rndQ_nonneg (add_nonneg h0 c0)
  have hlt : |rndQ (w + c)| < pow2 128 := by
    rw [abs_of_nonneg hn]; exact lt_of_le_of_lt hq (pow2_lt (by norm_num))
  exact ⟨⟨onGrid_rndQ _, hlt⟩, rnd_of_lt hlt, hn, hq⟩

theorem score_step {w c v p : ℚ} (gw : OnGrid w) (gc : OnGrid c) (h0 : 0 ≤ w) (h1 : w ≤ pow2 34) (c0 : 0 ≤ c)
    (c1 : c ≤ pow2 10) (v0 : 0 ≤ v) (v1 : v ≤ pow2 91 * w) (p0 : 0 ≤ p) (p1 : p ≤ pow2 91) :
    ∃ x hx y hy, rnd (p * c) = fin x hx ∧ rnd (v + x) = fin y hy ∧ 0 ≤ y ∧ y ≤ pow2 91 * rndQ (w + c) := by
  have x1 : rndQ (p * c) ≤ pow2 91 * c :=
    rndQ_le_of_onGrid (grid_scale gc (by norm_num)) (mul_le_mul_of_nonneg_right p1 c0)
  have x0 : 0 ≤ rndQ (p * c) := rndQ_nonneg (mul_nonneg p0 c0)
  have hxlt : |rndQ (p * c)| < pow2 128 := by
    rw [abs_of_nonneg x0]
    refine lt_of_le_of_lt (le_trans x1 (mul_le_mul_of_nonneg_left c1 (pow2_pos _).le)) ?_
    rw [← pow2_add]; exact pow2_lt (by norm_num)
  obtain ⟨hw', -, w0, w1⟩ := weight_step h0 h1 c0 c1
  have y1 : rndQ (v + rndQ (p * c)) ≤ pow2 91 * rndQ (w + c) := by
    rw [← rndQ_scale_add gw gc (by norm_num)]
    refine rndQ_mono ?_
    rw [mul_add]; exact add_le_add v1 x1
  have y0 : 0 ≤ rndQ (v + rndQ (p * c)) := rndQ_nonneg (add_nonneg v0 x0)
  have hylt : |rndQ (v + rndQ (p * c))| < pow2 128 := by
    rw [abs_of_nonneg y0]
    refine lt_of_le_of_lt (le_trans y1 (mul_le_mul_of_nonneg_left w1 (pow2_pos _).le)) ?_
    rw [← pow2_add]; exact pow2_lt (by norm_num)
  exact ⟨_, ⟨onGrid_rndQ _, hxlt⟩, _, ⟨onGrid_rndQ _, hylt⟩, rnd_of_lt hxlt, rnd_of_lt hylt, y0, y1⟩

theorem score_step_abs {w c v p : ℚ} (gw : OnGrid w) (gc : OnGrid c) (h0 : 0 ≤ w) (h1 : w ≤ pow2 34) (c0 : 0 ≤ c)
    (c1 : c ≤ pow2 10) (v1 : |v| ≤ pow2 91 * w) (p1 : |p| ≤ pow2 91) :
    ∃ x hx y hy, rnd (p * c) = fin x hx ∧ rnd (v + x) = fin y hy ∧ |y| ≤ pow2 91 * rndQ (w + c) := by
  have x1 : |rndQ (p * c)| ≤ pow2 91 * c := by
    rw [abs_rndQ]
    refine rndQ_le_of_onGrid (grid_scale gc (by norm_num)) ?_
    rw [_root_.abs_mul, abs_of_nonneg c0]
    exact mul_le_mul_of_nonneg_right p1 c0
  have hxlt : |rndQ (p * c)| < pow2 128 := by
    refine lt_of_le_of_lt (le_trans x1 (mul_le_mul_of_nonneg_left c1 (pow2_pos _).le)) ?_
    rw [← pow2_add]; exact pow2_lt (by norm_num)
  obtain ⟨hw', -, w0, w1⟩ := weight_step h0 h1 c0 c1
  have y1 : |rndQ (v + rndQ (p * c))| ≤ pow2 91 * rndQ (w + c) := by
    rw [← rndQ_scale_add gw gc (by norm_num), abs_rndQ]
    refine rndQ_mono ?_
    rw [mul_add]; exact le_trans (abs_add_le _ _) (add_le_add v1 x1)
  have hylt : |rndQ (v + rndQ (p * c))| < pow2 128 := by
    refine lt_of_le_of_lt (le_trans y1 (mul_le_mul_of_nonneg_left w1 (pow2_pos _).le)) ?_
    rw [← pow2_add]; exact pow2_lt (by norm_num)
  exact ⟨_, ⟨onGrid_rndQ _, hxlt⟩, _, ⟨onGrid_rndQ _, hylt⟩, rnd_of_lt hxlt, rnd_of_lt hylt, y1⟩

theorem accSegment_inv {minC sw : F32} (s0 : 0 < sw) (s1 : sw ≤ rnd (pow2 10)) {acc : Acc} (hi : AccInv acc) {r : Res}
    (hr : Reported r) : ∃ acc', accSegment minC sw acc r = .ok acc' ∧ AccInv acc' := by
  obtain ⟨c, hc, c0, c1⟩ := reported_clarity hr
  unfold accSegment
  rw [hc]
  simp only [bind, Except.bind]
  split_ifs with hm
  swap
  · exact ⟨acc, rfl, hi⟩
  refine ⟨_, rfl, ?_⟩
  have hfs : sw.isFinite = true := isFinite_of_between (by decide +kernel) (by decide +kernel) (F32.le_of_lt s0) s1
  have hfc : c.isFinite = true := isFinite_of_between (by decide +kernel) (by decide +kernel) c0 c1
  have hnn := mul_fin_ne_nan hfc hfs
  have w0 : 0 ≤ c * sw := F32.mul_nonneg c0 (F32.le_of_lt s0) hnn
  have w1 : c * sw ≤ rnd (pow2 10) :=
    F32.le_trans (F32.mul_le_mul_of_nonneg_right c1 (F32.le_of_lt s0) hnn (mul_fin_ne_nan (by decide +kernel) hfs))
      (F32.le_trans (F32.mul_le_mul_of_nonneg_left s1 (by decide +kernel) (mul_fin_ne_nan (by decide +kernel) hfs) (by decide +kernel))
        (by decide +kernel))
  obtain ⟨h10, e10⟩ : ∃ h, rnd (pow2 10) = fin (pow2 10) h := ⟨by decide +kernel, by decide +kernel⟩
  rw [e10] at w1
  generalize c * sw = ω at w0 w1 ⊢
  rw [zero_def] at w0
  obtain ⟨u, hu, rfl, u0, u1⟩ := between_cases w0 w1
  obtain ⟨w, hw, ew, x0, x1, hq⟩ := hi.weight
  obtain ⟨hw', e', y0, y1⟩ := weight_step x0 x1 u0 u1
  have hnd : (r.all.map Prod.fst).Nodup := hr.keys.nodup_iff.2 allKeys_nodup
  constructor
  · show (r.all.foldl _ acc.scores).map Prod.fst = allKeys
    rw [fold_add _ _ _ hnd, List.map_map, ← hi.keys]
    apply List.map_congr_left
    intro q _
    simp only [Function.comp]
    split <;> rfl
  · refine ⟨_, hw', by show acc.weight + fin u hu = _; rw [ew, add_fin, e'], y0, y1, ?_⟩
    intro q hqm
    replace hqm : q ∈ r.all.foldl (fun a p => a.map (fun q => if q.1 = p.1 then (q.1, q.2 + p.2 * fin u hu) else q)) acc.scores := hqm
    rw [fold_add _ _ _ hnd] at hqm
    obtain ⟨q', hq', rfl⟩ := List.mem_map.1 hqm
    obtain ⟨v, hv, ev, v1⟩ := hq q' hq'
    rcases hf : r.all.find? (fun p => decide (p.1 = q'.1)) with _ | p
    · exfalso
      have hk : q'.1 ∈ r.all.map Prod.fst := hr.keys.mem_iff.2 (by rw [← hi.keys]; exact List.mem_map_of_mem hq')
      obtain ⟨p, hp, e⟩ := List.mem_map.1 hk
      exact absurd (List.find?_eq_none.1 hf p hp) (by simp [e])
    · rw [hf]
      dsimp only
      obtain ⟨z, hz, ez, z1⟩ := hr.range p (List.mem_of_find?_eq_some hf)
      obtain ⟨x, hx, y, hy, a1, a2, a3⟩ := score_step_abs hw.1 hu.1 x0 x1 u0 u1 v1 z1
      exact ⟨y, hy, by rw [ev, ez, mul_fin, a1, add_fin, a2], a3⟩

theorem accSegments_inv {det : List (List F32) → Option (List F32) → R Res} {chroma : List (List F32)}
    {weights : Option (List F32)} (hdet : ∀ c w, ChromaInput c w → c.length ≤ chroma.length → ∃ r, det c w = .ok r ∧ Reported r)
    (hc : ChromaInput chroma weights) {minC sw : F32} (s0 : 0 < sw) (s1 : sw ≤ rnd (pow2 10)) {len : ℕ} (hl : 0 < len) :
    ∀ (starts : List ℕ) (acc : Acc), (∀ s ∈ starts, s + len ≤ chroma.length) → AccInv acc →
    ∃ acc', accSegments det chroma weights minC sw len starts acc = .ok acc' ∧ AccInv acc'
  | [], acc, _, hi => ⟨acc, rfl, hi⟩
  | s :: ss, acc, hs, hi => by
    obtain ⟨r, hr, hd⟩ := hdet _ _ (window_input hc hl (hs s (by simp)))
      (by rw [List.length_take, List.length_drop]; omega)
    obtain ⟨acc', ha, hi'⟩ := accSegment_inv (minC := minC) s0 s1 hi hd
    rw [accSegments, hr]
    simp only [bind, Except.bind]
    rw [ha]
    exact accSegments_inv hdet hc s0 s1 hl ss acc' (fun t ht => hs t (by simp [ht])) hi'

theorem accScales_inv {det : List (List F32) → Option (List F32) → R Res} {chroma : List (List F32)}
    {weights : Option (List F32)} (hdet : ∀ c w, ChromaInput c w → c.length ≤ chroma.length → ∃ r, det c w = .ok r ∧ Reported r)
    (hc : ChromaInput chroma weights) {minC : F32} {hop : ℕ} {sws : Option (List F32)}
    (hsw : ∀ w, sws = some w → ∀ x ∈ w, x ≤ rnd (pow2 10)) :
    ∀ (lens : List ℕ) (i : ℕ) (acc : Acc), AccInv acc →
    ∃ acc', accScales det chroma weights minC hop sws i lens acc = .ok acc' ∧ AccInv acc'
  | [], i, acc, hi => ⟨acc, rfl, hi⟩
  | len :: lens, i, acc, hi => by
    rw [accScales]
    split_ifs with h
    · exact accScales_inv hdet hc hsw lens (i + 1) acc hi
    · push Not at h
      have hb : ((sws.bind (fun w => w[i]?))).getD 1 ≤ rnd (pow2 10) := by
        rcases sws with _ | w
        · show (1 : F32) ≤ _; decide +kernel
        · show (w[i]?).getD 1 ≤ _
          rcases hx : w[i]? with _ | x
          · show (1 : F32) ≤ _; decide +kernel
          · exact hsw w rfl x (List.mem_of_getElem? hx)
      have hpos : 0 < ((sws.bind (fun w => w[i]?))).getD 1 :=
        F32.lt_of_not_le (by decide +kernel) (ne_nan_left hb) h.2.2
      obtain ⟨acc', ha, hi'⟩ := accSegments_inv hdet hc (minC := minC) hpos hb (Nat.pos_of_ne_zero h.1)
        (segStarts chroma.length len (max hop 1)) acc
        (fun s hs => ((mem_segStarts (by omega)).1 hs).1) hi
      rw [ha]
      exact accScales_inv hdet hc hsw lens (i + 1) acc' hi'

/-- **C61** (multi-scale): on ordinary chroma, for every list of segment lengths, hop, clarity threshold and scale weights up
to 2^10, with or without the mode heuristic and the harmonic-minor bonus (weights up to 16), the multi-scale detection succeeds
with all 24 keys ranked by non-increasing score, a valid key among its `top_keys`, and a confidence in [0,1]. -/
theorem C61_multi_scale (ord : List (Key × F32) → List (Key × F32)) (hord : ∀ l, (ord l).Perm l) (chroma : List (List F32))
    (T : Templates) (weights : Option (List F32)) (hc : ChromaInput chroma weights) (hT : UnitTemplates T) (lens : List ℕ)
    (hl : lens ≠ []) (hop : ℕ) (minC : F32) (sws : Option (List F32)) (hsw : ∀ w, sws = some w → ∀ x ∈ w, x ≤ rnd (pow2 10))
    (modeOn : Bool) (tm fm : F32) (bonus : Bool) (bw : F32) (hb : bonus = true → F32.max bw 0 ≤ 16 ∧ chroma.length ≤ 2 ^ 64) :
    ∃ r, detectMultiScale ord chroma T weights lens hop minC sws modeOn tm fm bonus bw = .ok r ∧ Complete r.all ∧
      r.all.Pairwise (fun a b => b.2 ≤ a.2) ∧ ValidKey r.key ∧ (∃ s, (r.key, s) ∈ r.all ∧ (r.key, s) ∈ r.top) ∧
      0 ≤ r.conf ∧ r.conf ≤ 1 := by
  unfold detectMultiScale
  rw [if_neg hc.ne, if_neg hl]
  dsimp only
  have hdet : ∀ c w, ChromaInput c w → c.length ≤ chroma.length →
      ∃ r, detectWith ord c T w modeOn tm fm bonus bw = .ok r ∧ Reported r :=
    fun c w h hl => detectWith_reported hord h hT modeOn tm fm bonus bw (fun h => ⟨(hb h).1, le_trans hl (hb h).2⟩)
  have hinit : AccInv ⟨allKeys.map (fun k => (k, 0)), 0, 0⟩ := by
    constructor
    · show (allKeys.map (fun k => (k, (0 : F32)))).map Prod.fst = allKeys
      rw [List.map_map, show ((Prod.fst ∘ fun k => (k, (0 : F32))) : Key → Key) = id from rfl, List.map_id]
    · refine ⟨0, grid_zero, zero_def, le_refl _, (pow2_pos _).le, ?_⟩
      intro q hq
      obtain ⟨k, _, rfl⟩ := List.mem_map.1 hq
      exact ⟨0, grid_zero, zero_def, by rw [mul_zero, abs_zero]⟩
  obtain ⟨acc, ha, hi⟩ := accScales_inv hdet hc (minC := minC) (hop := hop) hsw lens 0 _ hinit
  rw [ha]
  simp only [bind, Except.bind]
  split_ifs with hu
  · obtain ⟨r, hr, hd⟩ := hdet chroma weights hc (le_refl _)
    exact ⟨r, hr, complete_of_perm hd.keys, hd.sorted, hd.valid, hd.listed, hd.conf⟩
  · push Not at hu
    obtain ⟨w, hw, ew, w0, w1, hq⟩ := hi.weight
    have hwpos : 0 < w := by
      rcases lt_or_eq_of_le w0 with h | h
      · exact h
      · exfalso
        subst h
        exact hu.2 (by rw [ew]; exact F32.le_trans (b := 0) (by rw [zero_def]; exact fin_le_fin.2 (le_refl _)) (by decide +kernel))
    have hbd : ∀ p ∈ acc.scores.map (fun p => (p.1, p.2 / acc.weight)), Within (pow2 91) p.2 := by
      intro p hp
      obtain ⟨q, hqm, rfl⟩ := List.mem_map.1 hp
      obtain ⟨v, hv, ev, v1⟩ := hq q hqm
      have hd : |v / w| ≤ pow2 91 := by rw [abs_div, abs_of_pos hwpos, div_le_iff₀ hwpos]; exact v1
      obtain ⟨hr, e, hb⟩ := rnd_finite_of_abs_le (grid_pow2 (k := 91) (by norm_num) (by norm_num)) hd
      exact ⟨_, hr, by dsimp only; rw [ev, ew, div_fin hwpos.ne', e], hb⟩
    have hnn : ∀ p ∈ acc.scores.map (fun p => (p.1, p.2 / acc.weight)), p.2 ≠ nan := fun p hp => (hbd p hp).ne_nan
    unfold sortDescP
    rw [sortMeetsNaN_false hnn]
    refine ⟨_, rfl, ?_⟩
    dsimp only
    generalize hL : sortDesc Prod.snd (acc.scores.map (fun p => (p.1, p.2 / acc.weight))) = l
    have hperm : (l.map Prod.fst).Perm allKeys := by
      rw [← hL]
      refine ((sortDesc_perm _).map _).trans ?_
      rw [List.map_map, ← hi.keys]
      rfl
    have hsort : l.Pairwise (fun a b => b.2 ≤ a.2) := by rw [← hL]; exact sortDesc_pairwise hnn
    have hbl : ∀ p ∈ l, p.2 ≠ nan ∧ p.2 ≠ inf false := by
      intro p hp
      rw [← hL, mem_sortDesc] at hp
      exact ⟨(hbd p hp).ne_nan, (hbd p hp).ne_inf _⟩
    obtain ⟨b, s, e1, e2, e3, e4, -, e6⟩ := ranked_parts hperm hbl hsort
    rw [e1, e2]
    refine ⟨complete_of_perm hperm, hsort, (validKey_iff _).2 (hperm.mem_iff.1 (List.mem_map_of_mem e3)), ⟨b.2, e3, ?_⟩, e6⟩
    rcases l with _ | ⟨x, l⟩
    · simp at e4
    · simp only [List.head?_cons, Option.some.injEq] at e4
      rw [e4]; simp

/-- non-vacuity: the default scales, with one weight per scale; one of them disables its scale -/
example : ([120, 360, 720] : List ℕ) ≠ [] ∧ (∀ x ∈ ([1, 0.5, -1] : List F32), x ≤ rnd (pow2 10)) ∧ F32.max 0.25 0 ≤ 16 := by
  decide +kernel

/-! ### median -/

theorem medianSegments_spec {ord : List (Key × F32) → List (Key × F32)} {chroma : List (List F32)} {T : Templates}
    {weights : Option (List F32)} {len : ℕ} : ∀ {starts : List ℕ} {segs},
    medianSegments ord chroma T weights len starts = .ok segs →
    ∃ l : List (ℕ × Res), (l.map Prod.fst).Sublist starts ∧
      (∀ x ∈ l, detectKey ord ((chroma.drop x.1).take len) T (segWeights weights x.1 len) = .ok x.2) ∧
      segs = l.map Prod.snd ∧
      ∀ s ∈ starts, ∀ r, detectKey ord ((chroma.drop s).take len) T (segWeights weights s len) = .ok r → (s, r) ∈ l
  | [], segs, h => by
    cases h
    exact ⟨[], by simp, by simp, by simp, by simp⟩
  | s :: ss, segs, h => by
    rw [medianSegments] at h
    rcases hd : detectKey ord ((chroma.drop s).take len) T (segWeights weights s len) with e | r
    · rw [hd] at h
      cases e with
      | err k =>
        rcases hr : medianSegments ord chroma T weights len ss with e' | rest
        · rw [hr] at h; cases h
        · rw [hr] at h
          cases h
          obtain ⟨l, h1, h2, h3, h4⟩ := medianSegments_spec hr
          refine ⟨l, h1.cons _, h2, by rw [← h3]; rfl, ?_⟩
          intro s' hs' r hr'
          rcases List.mem_cons.1 hs' with rfl | hs'
          · rw [hd] at hr'; cases hr'
          · exact h4 s' hs' r hr'
      | _ => cases h
    · rw [hd] at h
      rcases hr : medianSegments ord chroma T weights len ss with e' | rest
      · rw [hr] at h; cases h
      · rw [hr] at h
        cases h
        obtain ⟨l, h1, h2, h3, h4⟩ := medianSegments_spec hr
        refine ⟨(s, r) :: l, ?_, ?_, ?_, ?_⟩
        · rw [List.map_cons]; exact h1.cons_cons _
        · intro x hx
          rcases List.mem_cons.1 hx with rfl | hx
          · exact hd
          · exact h2 x hx
        · rw [List.map_cons, ← h3]; rfl
        · intro s' hs' r' hr'
          rcases List.mem_cons.1 hs' with rfl | hs'
          · rw [hd] at hr'; cases hr'; simp
          · simp [h4 s' hs' r' hr']

/-- the number of segments detected in key `k` -/
def keyCount (segs : List (ℕ × Res)) (k : Key) : ℕ := (segs.filter (fun x => decide (x.2.key = k))).length

/-- the summed confidence of the segments detected in key `k` -/
def confSum (segs : List (ℕ × Res)) (k : Key) : F32 :=
  F32.sum ((segs.filter (fun x => decide (x.2.key = k))).map (fun x => x.2.conf))

/-- the segments over which the median detection votes: the windows of `len` frames, one every `step` frames, that lie in
the signal and whose detection succeeds -/
def Segments (ord : List (Key × F32) → List (Key × F32)) (chroma : List (List F32)) (T : Templates)
    (weights : Option (List F32)) (len step : ℕ) (segs : List (ℕ × Res)) : Prop :=
  (segs.map Prod.fst).Pairwise (· < ·) ∧
  ∀ s x, (s, x) ∈ segs ↔ s + len ≤ chroma.length ∧ step ∣ s ∧
    detectKey ord ((chroma.drop s).take len) T (segWeights weights s len) = .ok x

/-- the pieces of a successful median detection that does not fall back -/
theorem median_parts {ord : List (Key × F32) → List (Key × F32)} {ordC : List (Key × ℕ × F32) → List (Key × ℕ × F32)}
    (hordC : ∀ l, (ordC l).Perm l) {chroma : List (List F32)} {T : Templates} {weights : Option (List F32)}
    {segLen hop minSeg : ℕ} {r : Res} (h : detectMedian ord ordC chroma T weights segLen hop minSeg = .ok r) :
    ∃ segs, Segments ord chroma T weights (max (min segLen chroma.length) 120) (max hop 1) segs ∧
      (segs.length < max minSeg 1 → detectKey ord chroma T weights = .ok r) ∧
      (max minSeg 1 ≤ segs.length →
        r.all = sortDesc Prod.snd (allKeys.map (fun k => (k, aggScore (segs.map Prod.snd) k))) ∧ r.top = r.all.take 3 ∧
        r.conf = margin (findScore (fun k => decide (k = r.key)) r.all 0) (findScore (fun k => decide (k ≠ r.key)) r.all 0) ∧
        ∃ m e0 es, Counted m (segs.map (fun x => (x.2.key, x.2.conf))) ∧ (e0 :: es).Perm m ∧
          r.key = (es.foldl (fun m x => if countGt m x then m else x) e0).1) := by
  unfold detectMedian at h
  split_ifs at h
  dsimp only at h
  generalize hlen : max (min segLen chroma.length) 120 = len at h ⊢
  rcases hs : medianSegments ord chroma T weights len (segStarts chroma.length len (max hop 1)) with e | segs
  · rw [hs] at h; cases h
  rw [hs] at h
  obtain ⟨l, hsub, hdet, hsegs, hall⟩ := medianSegments_spec hs
  have hhop : 0 < max hop 1 := by omega
  refine ⟨l, ⟨(segStarts_sorted hhop).sublist hsub, ?_⟩, ?_, ?_⟩
  · intro s x
    constructor
    · intro hx
      have := (mem_segStarts hhop).1 (hsub.subset (List.mem_map_of_mem hx))
      exact ⟨this.1, this.2, hdet _ hx⟩
    · rintro ⟨a1, a2, a3⟩
      exact hall s ((mem_segStarts hhop).2 ⟨a1, a2⟩) x a3
  · intro hlt
    simp only [bind, Except.bind] at h
    rw [if_pos (by rw [hsegs, List.length_map]; exact hlt)] at h
    exact h
  · intro hge
    simp only [bind, Except.bind] at h
    rw [if_neg (by rw [hsegs, List.length_map]; omega)] at h
    have hcount := counted_fold (fun x : Res => (x.key, x.conf)) segs [] [] counted_nil
    rw [List.nil_append] at hcount
    generalize hm : segs.foldl (fun m r => countKey r.key r.conf m) [] = m at h hcount
    have hperm := hordC m
    rcases hcs : ordC m with _ | ⟨e0, es⟩
    · rw [hcs] at h; cases h
    rw [hcs] at h hperm
    simp only [pure, Except.pure, Except.ok.injEq] at h
    rw [← hsegs]
    rw [hsegs, List.map_map] at hcount
    generalize hL : sortDesc Prod.snd (allKeys.map (fun k => (k, aggScore segs k))) = L at h ⊢
    generalize hb : es.foldl (fun m x => if countGt m x then m else x) e0 = best at h
    have h1 : r.all = L := by rw [← h]
    have h2 : r.key = best.1 := by rw [← h]
    have h3 : r.top = L.take 3 := by rw [← h]
    have h4 : r.conf = margin (findScore (fun k => decide (k = best.1)) L 0) (findScore (fun k => decide (k ≠ best.1)) L 0) := by
      rw [← h]
    exact ⟨h1, by rw [h3, h1], by rw [h4, h1, h2], m, e0, es, hcount, hperm, by rw [hb]; exact h2⟩

/-- **C63** (the vote; partial): whenever the median detection returns, under every hash order: with fewer successful
segments than asked for, the result is that of the whole signal; otherwise all 24 keys are listed, the reported key has the
largest number of segments, and no key with as many segments has a larger summed confidence.  Missing: the scores, see
`C63_violated`. -/
theorem C63_vote_partial (ord : List (Key × F32) → List (Key × F32)) (ordC : List (Key × ℕ × F32) → List (Key × ℕ × F32))
    (hordC : ∀ l, (ordC l).Perm l) (chroma : List (List F32)) (T : Templates) (weights : Option (List F32))
    (segLen hop minSeg : ℕ) (r : Res) (h : detectMedian ord ordC chroma T weights segLen hop minSeg = .ok r) :
    ∃ segs, Segments ord chroma T weights (max (min segLen chroma.length) 120) (max hop 1) segs ∧
      (segs.length < max minSeg 1 → detectKey ord chroma T weights = .ok r) ∧
      (max minSeg 1 ≤ segs.length → Complete r.all ∧ r.top = r.all.take 3 ∧ 0 < keyCount segs r.key ∧
        (∀ k, keyCount segs k ≤ keyCount segs r.key) ∧
        ((∀ x ∈ segs, 0 ≤ x.2.conf) → ∀ k, keyCount segs k = keyCount segs r.key → confSum segs k ≤ confSum segs r.key)) := by
  obtain ⟨segs, hS, h1, h2⟩ := median_parts hordC h
  refine ⟨segs, hS, h1, fun hge => ?_⟩
  obtain ⟨e1, e2, -, m, e0, es, hcount, hperm, ek⟩ := h2 hge
  have hbest := foldMaxBy_spec (fun _ => True) countGt (fun a b => a.2.1 ≤ b.2.1) (fun a _ => _root_.le_refl _)
    (fun a b c _ _ _ => _root_.le_trans)
    (fun a b _ _ hab => by
      simp only [countGt, Bool.or_eq_true, Bool.and_eq_true, decide_eq_true_eq] at hab; omega)
    (fun a b _ _ hab => by
      simp only [countGt, Bool.or_eq_false_iff, decide_eq_false_iff_not] at hab; omega) es e0 (by simp)
  have hbest2 : (∀ x ∈ segs, 0 ≤ x.2.conf) → ∀ e ∈ m, e.2.1 = (es.foldl (fun m x => if countGt m x then m else x) e0).2.1 →
      e.2.2 ≤ (es.foldl (fun m x => if countGt m x then m else x) e0).2.2 := by
    intro hconf
    have hne : ∀ e ∈ m, e.2.2 ≠ nan := by
      intro e he
      rw [hcount.sum e he]
      refine ne_nan_right (sum_nonneg ?_)
      intro x hx
      obtain ⟨y, hy, rfl⟩ := List.mem_map.1 hx
      obtain ⟨z, hz, rfl⟩ := List.mem_map.1 (List.mem_of_mem_filter hy)
      exact hconf z hz
    have hb2 := foldMaxBy_spec (fun e => e.2.2 ≠ nan) countGt
      (fun a b => a.2.1 < b.2.1 ∨ (a.2.1 = b.2.1 ∧ a.2.2 ≤ b.2.2)) (fun a ha => Or.inr ⟨rfl, F32.le_refl ha⟩)
      (fun a b c _ _ _ h1 h2 => by
        rcases h1 with h1 | ⟨h1, h1'⟩ <;> rcases h2 with h2 | ⟨h2, h2'⟩
        · left; omega
        · left; omega
        · left; omega
        · right; exact ⟨by omega, F32.le_trans h1' h2'⟩)
      (fun a b _ _ hab => by
        simp only [countGt, Bool.or_eq_true, Bool.and_eq_true, decide_eq_true_eq] at hab
        rcases hab with h | h
        · left; exact h
        · right; exact ⟨h.1, F32.le_of_lt h.2⟩)
      (fun a b ha hb hab => by
        simp only [countGt, Bool.or_eq_false_iff, Bool.and_eq_false_iff, decide_eq_false_iff_not] at hab
        rcases hab with ⟨h1, h2⟩
        by_cases e : a.2.1 = b.2.1
        · right
          rcases h2 with h2 | h2
          · exact absurd e.symm h2
          · exact ⟨e, F32.le_of_not_lt ha hb h2⟩
        · left; omega) es e0
      (by intro x hx; exact hne x (hperm.mem_iff.1 hx))
    intro e he hc
    have : e.2.1 < (es.foldl (fun m x => if countGt m x then m else x) e0).2.1 ∨ (e.2.1 =
        (es.foldl (fun m x => if countGt m x then m else x) e0).2.1 ∧ e.2.2 ≤
        (es.foldl (fun m x => if countGt m x then m else x) e0).2.2) := by
      rcases List.mem_cons.1 (hperm.mem_iff.2 he) with rfl | he
      · exact hb2.2.1
      · exact hb2.2.2 e he
    rcases this with h | h
    · omega
    · exact h.2
  dsimp only at hbest
  generalize es.foldl (fun m x => if countGt m x then m else x) e0 = best at hbest hbest2 ek
  have hbm : best ∈ m := hperm.mem_iff.1 (by rcases hbest.1 with e | e <;> simp [e])
  have hmax : ∀ e ∈ m, e.2.1 ≤ best.2.1 := by
    intro e he
    rcases List.mem_cons.1 (hperm.mem_iff.2 he) with rfl | he
    · exact hbest.2.1
    · exact hbest.2.2 e he
  have hcnt : ∀ k, ((segs.map (fun x : ℕ × Res => (x.2.key, x.2.conf))).filter (fun p => decide (p.1 = k))) =
      (segs.filter (fun x => decide (x.2.key = k))).map (fun x => (x.2.key, x.2.conf)) := by
    intro k; rw [List.filter_map]; rfl
  have hc1 : ∀ e ∈ m, e.2.1 = keyCount segs e.1 := by
    intro e he; rw [hcount.count e he, hcnt, List.length_map]; rfl
  have hc2 : ∀ e ∈ m, e.2.2 = confSum segs e.1 := by
    intro e he; rw [hcount.sum e he, hcnt, List.map_map]; rfl
  have hzero : ∀ k, k ∉ m.map Prod.fst → keyCount segs k = 0 := by
    intro k hk
    rw [hcount.all] at hk
    unfold keyCount
    rw [List.length_eq_zero_iff, List.filter_eq_nil_iff]
    intro s hs' hk'
    exact hk (by rw [List.map_map]; exact List.mem_map.2 ⟨s, hs', by simpa using hk'⟩)
  have hpos : 0 < keyCount segs best.1 := by rw [← hc1 best hbm]; exact hcount.pos best hbm
  rw [ek]
  refine ⟨complete_of_perm (by rw [e1]; exact keys_of_map _), e2, hpos, ?_, ?_⟩
  · intro k
    by_cases hk : k ∈ m.map Prod.fst
    · obtain ⟨e, he, rfl⟩ := List.mem_map.1 hk
      rw [← hc1 e he, ← hc1 best hbm]; exact hmax e he
    · rw [hzero k hk]; omega
  · intro hconf k hk
    by_cases hkm : k ∈ m.map Prod.fst
    · obtain ⟨e, he, rfl⟩ := List.mem_map.1 hkm
      rw [← hc2 e he, ← hc2 best hbm]
      exact hbest2 hconf e he (by rw [hc1 e he, hc1 best hbm, hk])
    · rw [hzero k hkm] at hk; omega

/-- **C63 violated**, for every input: on frames of twelve values in [0,1] with at least one value 0.01 or more, when the
segments are enough to vote, every key gets score 0, the confidence is 0 and `top_keys` are C, C sharp and D major,
whatever the reported key. -/
theorem C63_violated (ord : List (Key × F32) → List (Key × F32)) (hord : ∀ l, (ord l).Perm l)
    (ordC : List (Key × ℕ × F32) → List (Key × ℕ × F32)) (hordC : ∀ l, (ordC l).Perm l) (chroma : List (List F32))
    (hc : ∀ f ∈ chroma, Audible f) (T : Templates) (hT : FullTemplates T) (segLen hop minSeg : ℕ) (r : Res)
    (h : detectMedian ord ordC chroma T none segLen hop minSeg = .ok r)
    (henough : (max (min segLen chroma.length) 120) + (max minSeg 1 - 1) * max hop 1 ≤ chroma.length) :
    (∀ p ∈ r.all, p.2 = 0) ∧ r.conf = 0 ∧ r.top = [(.major 0, 0), (.major 1, 0), (.major 2, 0)] := by
  obtain ⟨segs, hS, -, h2⟩ := median_parts hordC h
  have hne : chroma ≠ [] := by
    rintro rfl
    have : 120 ≤ max (min segLen ([] : List (List F32)).length) 120 := le_max_right _ _
    simp only [List.length_nil] at henough this
    omega
  have hTu : UnitTemplates T :=
    ⟨fun k x hx => ⟨F32.le_trans (by decide +kernel) ((hT.1 k).2 x hx).1, ((hT.1 k).2 x hx).2⟩,
      fun k x hx => ⟨F32.le_trans (by decide +kernel) ((hT.2 k).2 x hx).1, ((hT.2 k).2 x hx).2⟩⟩
  have hin : ChromaInput chroma none := ⟨hne, fun f hf => ⟨(hc f hf).1, (hc f hf).2.1⟩, by simp, by simp⟩
  generalize hlen : max (min segLen chroma.length) 120 = len at hS henough h2
  have hlen0 : 0 < len := by rw [← hlen]; exact lt_of_lt_of_le (by norm_num) (le_max_right _ _)
  -- every window is detected, with confidence zero
  have hwin : ∀ s, s + len ≤ chroma.length → ∃ x, detectKey ord ((chroma.drop s).take len) T (segWeights none s len) = .ok x := by
    intro s hs
    obtain ⟨x, hx, _⟩ := C60_total ord hord _ _ T (window_input hin hlen0 hs) hTu
    exact ⟨x, hx⟩
  have hzero : ∀ q ∈ segs, q.2.conf = 0 ∧ (q.2.all.map Prod.fst).Perm allKeys ∧ ∀ p ∈ q.2.all, p.2.isFinite = true := by
    rintro ⟨s, x⟩ hx
    obtain ⟨a1, a2, a3⟩ := (hS.2 s x).1 hx
    have hi := window_input hin hlen0 a1
    have hsub : ∀ f ∈ (chroma.drop s).take len, Audible f :=
      fun f hf => hc f (List.mem_of_mem_drop (List.mem_of_mem_take hf))
    refine ⟨(C59_violated ord hord _ _ T hi hTu x a3 ⟨0, by decide, match_audible hi.ne hsub (hT.1 _)⟩
      ⟨0, by decide, match_audible hi.ne hsub (hT.2 _)⟩).1, (detectKey_all a3).1, ?_⟩
    intro p hp
    have := detect_range hi hTu a3 hp
    exact isFinite_of_between (by decide +kernel) (by decide +kernel) this.1 this.2
  have hcnt : max minSeg 1 ≤ segs.length := by
    have hsub : (List.range (max minSeg 1)).map (fun i => i * max hop 1) ⊆ segs.map Prod.fst := by
      intro s hs
      obtain ⟨i, hi, rfl⟩ := List.mem_map.1 hs
      rw [List.mem_range] at hi
      have hb : i * max hop 1 + len ≤ chroma.length := by
        have : i * max hop 1 ≤ (max minSeg 1 - 1) * max hop 1 := Nat.mul_le_mul_right _ (by omega)
        omega
      obtain ⟨x, hx⟩ := hwin _ hb
      exact List.mem_map.2 ⟨(i * max hop 1, x), (hS.2 _ _).2 ⟨hb, Dvd.intro_left i rfl, hx⟩, rfl⟩
    have hnd : ((List.range (max minSeg 1)).map (fun i => i * max hop 1)).Nodup := by
      refine List.Nodup.map ?_ List.nodup_range
      intro a b hab
      exact Nat.eq_of_mul_eq_mul_right (by omega) hab
    have := (List.subperm_of_subset hnd hsub).length_le
    rw [List.length_map, List.length_map, List.length_range] at this
    exact this
  obtain ⟨e1, e2, e3, -⟩ := h2 hcnt
  have hagg : ∀ k, aggScore (segs.map Prod.snd) k = 0 := by
    intro k
    have hf : ∀ l : List Res, (∀ x ∈ l, x.conf = 0 ∧ ∀ p ∈ x.all, p.2.isFinite = true) →
        l.foldl (fun (acc : F32 × F32) (r : Res) =>
          match r.all.find? (fun p => decide (p.1 = k)) with
          | some p => (acc.1 + p.2 * r.conf, acc.2 + r.conf)
          | none => acc) (0, 0) = (0, 0) := by
      intro l hl
      induction l with
      | nil => rfl
      | cons x l ih =>
        rw [List.foldl_cons]
        rcases hfd : x.all.find? (fun p => decide (p.1 = k)) with _ | p
        · simp only [hfd]; exact ih (fun y hy => hl y (by simp [hy]))
        · have hfin := (hl x (by simp)).2 p (List.mem_of_find?_eq_some hfd)
          have hz : p.2 * x.conf = 0 := by
            rw [(hl x (by simp)).1]
            rcases hp2 : p.2 with _ | b | ⟨v, hv⟩
            · rw [hp2] at hfin; exact absurd hfin (by decide)
            · rw [hp2] at hfin; exact absurd hfin (by simp [F32.isFinite])
            · rw [zero_def, mul_fin, mul_zero, rnd_zero, zero_def]
          simp only [hfd]
          rw [hz, (hl x (by simp)).1, show (0 : F32) + 0 = 0 by decide +kernel]
          exact ih (fun y hy => hl y (by simp [hy]))
    have h0 := hf (segs.map Prod.snd) (by
      intro x hx
      obtain ⟨q, hq, rfl⟩ := List.mem_map.1 hx
      exact ⟨(hzero q hq).1, (hzero q hq).2.2⟩)
    unfold aggScore
    dsimp only
    generalize hF : List.foldl _ ((0 : F32), (0 : F32)) (segs.map Prod.snd) = t
    have ht : t = (0, 0) := by rw [← hF]; exact h0
    rw [ht, if_neg (by decide +kernel)]
  have hall : r.all = allKeys.map (fun k => (k, 0)) := by
    rw [e1]
    simp only [hagg]
    decide +kernel
  refine ⟨?_, ?_, ?_⟩
  · intro p hp
    rw [hall] at hp
    obtain ⟨k, _, rfl⟩ := List.mem_map.1 hp
    rfl
  · have hfs : ∀ P, findScore P r.all 0 = 0 := by
      intro P
      unfold findScore
      rcases hfd : r.all.find? (fun q => P q.1) with _ | p
      · rw [hfd]; rfl
      · rw [hfd]
        have hm := List.mem_of_find?_eq_some hfd
        rw [hall] at hm
        obtain ⟨k, _, rfl⟩ := List.mem_map.1 hm
        rfl
    rw [e3, hfs, hfs]
    decide +kernel
  · rw [e2, hall]
    decide +kernel

/-- non-vacuity of both: 480 frames, four-second segments of 120 frames hopping by 60, at least three of them -/
example : (max (min 120 (List.replicate 480 (krumhanslKessler.getMajor 7)).length) 120) + (max (3 : ℕ) 1 - 1) * max (60 : ℕ) 1 ≤
    (List.replicate 480 (krumhanslKessler.getMajor 7)).length ∧
    ∀ f ∈ List.replicate 480 (krumhanslKessler.getMajor 7), Audible f := by
  refine ⟨by rw [List.length_replicate]; decide, ?_⟩
  intro f hf
  rw [List.eq_of_mem_replicate hf]
  unfold Audible; decide +kernel

theorem agg_fold (k : Key) : ∀ (l : List Res), (∀ x ∈ l, Detected x) → ∀ (v w : ℚ) (hv hw), 0 ≤ w → w ≤ pow2 34 → 0 ≤ v →
    v ≤ pow2 91 * w → ∃ v' w' hv' hw', l.foldl (fun (acc : F32 × F32) (r : Res) =>
      match r.all.find? (fun p => decide (p.1 = k)) with
      | some p => (acc.1 + p.2 * r.conf, acc.2 + r.conf)
      | none => acc) (fin v hv, fin w hw) = (fin v' hv', fin w' hw') ∧ 0 ≤ w' ∧ w' ≤ pow2 34 ∧ 0 ≤ v' ∧ v' ≤ pow2 91 * w'
  | [], _, v, w, hv, hw, h0, h1, h2, h3 => ⟨v, w, hv, hw, rfl, h0, h1, h2, h3⟩
  | x :: l, hl, v, w, hv, hw, h0, h1, h2, h3 => by
    have hx := hl x (by simp)
    rw [List.foldl_cons]
    rcases hf : x.all.find? (fun p => decide (p.1 = k)) with _ | p
    · simp only [hf]
      exact agg_fold k l (fun y hy => hl y (by simp [hy])) v w hv hw h0 h1 h2 h3
    · simp only [hf]
      have hp := hx.range p (List.mem_of_find?_eq_some hf)
      have hcf := hx.conf
      obtain ⟨hT, eT⟩ : ∃ h, TOP = fin (pow2 90 + pow2 88) h := ⟨by decide +kernel, by decide +kernel⟩
      rw [eT, zero_def] at hp
      rw [one_def, zero_def] at hcf
      obtain ⟨z, hz, ez, z0, z1⟩ := between_cases hp.1 hp.2
      obtain ⟨c, hc, ec, c0, c1⟩ := between_cases hcf.1 hcf.2
      have z2 : z ≤ pow2 91 := le_trans z1 (by decide +kernel)
      have c2 : c ≤ pow2 10 := le_trans c1 (by decide +kernel)
      obtain ⟨hw', e', y0, y1⟩ := weight_step h0 h1 c0 c2
      obtain ⟨a, ha, y, hy, a1, a2, a3, a4⟩ := score_step hw.1 hc.1 h0 h1 c0 c2 h2 h3 z0 z2
      rw [ez, ec, mul_fin, a1, add_fin, a2, add_fin, e']
      exact agg_fold k l (fun y hy => hl y (by simp [hy])) y _ hy hw' y0 y1 a3 a4

theorem aggScore_range {l : List Res} (hl : ∀ x ∈ l, Detected x) (k : Key) :
    0 ≤ aggScore l k ∧ aggScore l k ≤ rnd (pow2 91) := by
  obtain ⟨v, w, hv, hw, e, w0, w1, v0, v1⟩ := agg_fold k l hl 0 0 grid_zero grid_zero (_root_.le_refl _) (pow2_pos _).le
    (_root_.le_refl _) (by rw [mul_zero])
  rw [← zero_def] at e
  unfold aggScore
  dsimp only
  generalize hF : List.foldl _ ((0 : F32), (0 : F32)) l = t
  have ht : t = (fin v hv, fin w hw) := by rw [← hF]; exact e
  rw [ht]
  dsimp only
  split_ifs with h
  · have hw0 : 0 < w := by rw [zero_def] at h; exact fin_lt_fin.1 h
    rw [div_fin hw0.ne']
    have : v / w ≤ pow2 91 := by rw [div_le_iff₀ hw0]; exact v1
    exact ⟨rnd_nonneg (_root_.div_nonneg v0 w0), rnd_mono this⟩
  · exact ⟨by decide +kernel, by decide +kernel⟩

theorem medianSegments_ok {ord : List (Key × F32) → List (Key × F32)} {chroma : List (List F32)} {T : Templates}
    {weights : Option (List F32)} {len : ℕ} : ∀ {starts : List ℕ},
    (∀ s ∈ starts, ∃ r, detectKey ord ((chroma.drop s).take len) T (segWeights weights s len) = .ok r) →
    ∃ segs, medianSegments ord chroma T weights len starts = .ok segs
  | [], _ => ⟨[], rfl⟩
  | s :: ss, h => by
    obtain ⟨r, hr⟩ := h s (by simp)
    obtain ⟨segs, hs⟩ := medianSegments_ok (starts := ss) (fun t ht => h t (by simp [ht]))
    rw [medianSegments, hr, hs]
    exact ⟨_, rfl⟩

/-- **C61** (median): on ordinary chroma the median detection succeeds for every segment length, hop and minimum number of
segments, with all 24 keys ranked by non-increasing score, a valid key and a confidence in [0,1]. -/
theorem C61_median (ord : List (Key × F32) → List (Key × F32)) (hord : ∀ l, (ord l).Perm l)
    (ordC : List (Key × ℕ × F32) → List (Key × ℕ × F32)) (hordC : ∀ l, (ordC l).Perm l) (chroma : List (List F32))
    (T : Templates) (weights : Option (List F32)) (hc : ChromaInput chroma weights) (hT : UnitTemplates T)
    (segLen hop minSeg : ℕ) :
    ∃ r, detectMedian ord ordC chroma T weights segLen hop minSeg = .ok r ∧ Ranking r ∧ ValidKey r.key ∧
      0 ≤ r.conf ∧ r.conf ≤ 1 := by
  have hlen0 : 0 < max (min segLen chroma.length) 120 := lt_of_lt_of_le (by norm_num) (le_max_right _ _)
  have hdet : ∀ s, s + max (min segLen chroma.length) 120 ≤ chroma.length → ∃ r, detectKey ord
      ((chroma.drop s).take (max (min segLen chroma.length) 120)) T
      (segWeights weights s (max (min segLen chroma.length) 120)) = .ok r ∧ Detected r :=
    fun s hs => detectKey_detected hord (window_input hc hlen0 hs) hT
  obtain ⟨base, hbase, hbd⟩ := detectKey_detected hord hc hT
  have hok : ∃ r, detectMedian ord ordC chroma T weights segLen hop minSeg = .ok r := by
    obtain ⟨segs, hs⟩ := medianSegments_ok (ord := ord) (chroma := chroma) (T := T) (weights := weights)
      (len := max (min segLen chroma.length) 120)
      (starts := segStarts chroma.length (max (min segLen chroma.length) 120) (max hop 1)) (by
        intro s hs
        obtain ⟨r, hr, _⟩ := hdet s ((mem_segStarts (by omega)).1 hs).1
        exact ⟨r, hr⟩)
    unfold detectMedian
    rw [if_neg hc.ne]
    dsimp only
    rw [hs]
    simp only [bind, Except.bind]
    split_ifs with hlt
    · exact ⟨base, hbase⟩
    · have hcount := counted_fold (fun x : Res => (x.key, x.conf)) segs [] [] counted_nil
      rw [List.nil_append] at hcount
      generalize hm : segs.foldl (fun m r => countKey r.key r.conf m) [] = m at hcount
      have hperm := hordC m
      rcases hcs : ordC m with _ | ⟨e0, es⟩
      · exfalso
        rw [hcs] at hperm
        have hm0 := hperm.symm.eq_nil
        rcases segs with _ | ⟨x, segs⟩
        · simp at hlt
        · have := (hcount.all x.key).2 (by simp)
          rw [hm0] at this; simp at this
      · exact ⟨_, rfl⟩
  obtain ⟨r, hr⟩ := hok
  refine ⟨r, hr, ?_⟩
  obtain ⟨segs, hS, h1, h2⟩ := median_parts hordC hr
  rcases lt_or_ge segs.length (max minSeg 1) with hlt | hge
  · have hb := h1 hlt
    rw [hbase] at hb; cases hb
    exact ⟨⟨complete_of_perm hbd.keys, hbd.sorted, (C40_ranking ord hord chroma T weights base hbase).2.2.1⟩, hbd.valid, hbd.conf⟩
  · obtain ⟨e1, e2, e3, m, e0, es, hcount, hperm, ek⟩ := h2 hge
    have hD : ∀ x ∈ segs.map Prod.snd, Detected x := by
      intro x hx
      obtain ⟨⟨s, x⟩, hq, rfl⟩ := List.mem_map.1 hx
      obtain ⟨a1, _, a3⟩ := (hS.2 s x).1 hq
      obtain ⟨y, hy, hd⟩ := hdet s a1
      rw [a3] at hy; cases hy; exact hd
    have hbl : ∀ p ∈ r.all, 0 ≤ p.2 ∧ p.2 ≤ rnd (pow2 91) := by
      intro p hp
      rw [e1, mem_sortDesc] at hp
      obtain ⟨k, _, rfl⟩ := List.mem_map.1 hp
      exact aggScore_range hD k
    have hfs : ∀ P, 0 ≤ findScore P r.all 0 ∧ findScore P r.all 0 ≤ rnd (pow2 91) := by
      intro P
      unfold findScore
      rcases hfd : r.all.find? (fun q => P q.1) with _ | p
      · rw [hfd]; exact ⟨by decide +kernel, by decide +kernel⟩
      · rw [hfd]; exact hbl p (List.mem_of_find?_eq_some hfd)
    refine ⟨⟨complete_of_perm (by rw [e1]; exact keys_of_map _), ?_, e2⟩, ?_, ?_⟩
    · rw [e1]; apply sortDesc_pairwise
      intro a ha
      exact ne_nan_right (hbl a (by rw [e1, mem_sortDesc]; exact ha)).1
    · have hb := foldMaxBy_spec (fun _ => True) countGt (fun a b => a.2.1 ≤ b.2.1) (fun a _ => _root_.le_refl _)
        (fun a b c _ _ _ => _root_.le_trans)
        (fun a b _ _ hab => by
          simp only [countGt, Bool.or_eq_true, Bool.and_eq_true, decide_eq_true_eq] at hab; omega)
        (fun a b _ _ hab => by
          simp only [countGt, Bool.or_eq_false_iff, decide_eq_false_iff_not] at hab; omega) es e0 (by simp)
      dsimp only at hb
      generalize es.foldl (fun m x => if countGt m x then m else x) e0 = best at hb ek
      have hbm : best ∈ m := hperm.mem_iff.1 (by rcases hb.1 with e | e <;> simp [e])
      have hk := (hcount.all best.1).1 (List.mem_map_of_mem hbm)
      rw [List.map_map] at hk
      obtain ⟨q, hq, eq⟩ := List.mem_map.1 hk
      rw [ek, ← eq]
      exact (hD q.2 (List.mem_map_of_mem hq)).valid
    · rw [e3]
      rcases margin_unit (s := findScore (fun k => decide (k = r.key)) r.all 0)
        (o := findScore (fun k => decide (k ≠ r.key)) r.all 0) (fun e => by
          have := (hfs (fun k => decide (k = r.key))).2
          rw [e] at this; exact absurd this (by decide +kernel)) with h | h
      · exact h
      · exact absurd h (ne_nan_right (hfs _).1)

end Verif.Props
