/-
Lemmas about the candidate merge (Model/Period): the ranking comparator, octave correction, grouping.
-/
import Verif.Lemmas.Estimators
import Mathlib.Data.Prod.Lex
import Mathlib.Algebra.Order.Ring.Pow

namespace Verif.Period
open Verif F32

/-! ### The comparator -/

/-- Rounding threshold: a difference rounds below `0.5` exactly when it is below `1/2 - 2^-26`. -/
def half' : ℚ := 1 / 2 - 1 / 2 ^ 26

theorem rndQ_lt_half {q : ℚ} (h0 : 0 ≤ q) : rndQ q < 1 / 2 ↔ q < half' := by
  have ht : rndQ half' = 1 / 2 := by decide +kernel
  constructor
  · intro h
    by_contra hc
    have := rndQ_mono (not_lt.1 hc)
    rw [ht] at this
    linarith
  · intro h
    rcases le_or_gt q (1 / 4) with h4 | h4
    · have : rndQ q ≤ 1 / 4 := rndQ_le_of_onGrid (by decide +kernel) h4
      linarith
    · have hu : ulpExp q = -25 := by
        have habs : |q| = q := abs_of_nonneg h0
        have h1 : Int.log 2 |q| ≤ -2 := by
          apply log_le_of_lt (by linarith)
          simp only [habs]
          have : pow2 (-2 + 1) = 1 / 2 := by decide +kernel
          rw [this]; unfold half' at h; linarith
        have h2 : -2 ≤ Int.log 2 |q| := by
          apply le_log_of_le
          simp only [habs]
          have : pow2 (-2) = 1 / 4 := by decide +kernel
          rw [this]; linarith
        unfold ulpExp; omega
      have he := abs_rndQ_sub_le q
      rw [hu] at he
      have hp : pow2 (-25) = 1 / 2 ^ 25 := by decide +kernel
      rw [hp] at he
      have := (abs_le.1 he).2
      unfold half' at h
      by_contra hc
      linarith

theorem abs_sub_lt_half {v w : ℚ} {hv hw} :
    (fin v hv - fin w hw).abs < (0.5 : F32) ↔ |v - w| < half' := by
  rw [sub_fin, abs_rnd, ← rndQ_lt_half (_root_.abs_nonneg _)]
  have hh : (0.5 : F32) = fin (1 / 2) (by decide +kernel) := by decide +kernel
  rw [hh]
  by_cases hb : |(rndQ (|v - w|))| < pow2 128
  · rw [rnd_of_lt hb, fin_lt_fin]
  · have h2 : rndQ (|v - w|) = |(rndQ (|v - w|))| := (abs_of_nonneg (rndQ_nonneg (_root_.abs_nonneg _))).symm
    have h3 : pow2 128 ≤ rndQ (|v - w|) := by rw [h2]; exact not_lt.1 hb
    have h4 : rnd (|v - w|) = inf false := by
      unfold rnd; rw [dif_pos h3]
    rw [h4]
    have : (1:ℚ) / 2 ≤ pow2 128 := by decide +kernel
    constructor
    · intro h; exact absurd h (by simp [lt_def, toW])
    · intro h; linarith

/-- Lexicographic rank of an estimate: effective confidence (an in-range estimate counts `half'` more),
then the in-range flag, then the agreement. -/
def keyOf (c : F32) (r : Bool) : WithBot (WithTop ℚ) :=
  match c with
  | .fin v _ => ((v + if r then half' else 0 : ℚ) : WithTop ℚ)
  | c => c.toW

/-- second component of the rank -/
def flagOf (c : F32) (r : Bool) : ℕ :=
  match c with
  | .fin _ _ => if r then 0 else 1
  | _ => 1

/-- the rank of an estimate; larger ranks come first -/
def rank (e : Est) : WithBot (WithTop ℚ) ×ₗ ℕ ×ₗ ℕ :=
  toLex (keyOf (effConf e) (reasonable e.bpm), toLex (flagOf (effConf e) (reasonable e.bpm), e.agreement))

theorem effConf_ne_nan {e : Est} (h : e.conf ≠ nan) : effConf e ≠ nan := by
  unfold effConf
  split_ifs
  · exact h
  · have hh : (0.5 : F32) = fin (1 / 2) (by decide +kernel) := by decide +kernel
    rw [hh]
    cases hc : e.conf with
    | nan => exact absurd hc h
    | inf s => simp [inf_mul_fin]
    | fin v hv => rw [mul_fin]; exact rnd_ne_nan _

/-- the comparator on its ingredients -/
def cmpCore (ea eb : F32) (ar br : Bool) (na nb : ℕ) : Ordering :=
  let c := cmpOr eb ea
  if (ea - eb).abs < 0.5 ∧ ar = true ∧ br = false then .lt
  else if (ea - eb).abs < 0.5 ∧ ar = false ∧ br = true then .gt
  else if c ≠ .eq then c
  else compare nb na

theorem cmpEst_core (a b : Est) : cmpEst a b =
    cmpCore (effConf a) (effConf b) (reasonable a.bpm) (reasonable b.bpm) a.agreement b.agreement := by
  unfold cmpEst cmpCore
  dsimp only
  split_ifs <;> simp_all

theorem cmpCore_fin (v w : ℚ) {hv hw} (ar br : Bool) (na nb : ℕ) :
    cmpCore (fin v hv) (fin w hw) ar br na nb =
      if |v - w| < half' ∧ ar = true ∧ br = false then .lt
      else if |v - w| < half' ∧ ar = false ∧ br = true then .gt
      else if w < v then .lt else if v < w then .gt else compare nb na := by
  unfold cmpCore
  dsimp only
  simp only [abs_sub_lt_half]
  have : cmpOr (fin w hw) (fin v hv) = if w < v then .lt else if v < w then .gt else .eq := by
    simp only [cmpOr, partialCmp, isNaN, fin_lt_fin, Bool.or_self, Bool.false_eq_true, if_false]
    split_ifs <;> rfl
  rw [this]
  split_ifs <;> simp_all

theorem cmpCore_spec {ea eb : F32} (ha : ea ≠ nan) (hb : eb ≠ nan) (ar br : Bool) (na nb : ℕ) :
    (cmpCore ea eb ar br na nb = .lt ↔
      toLex (keyOf eb br, toLex (flagOf eb br, nb)) < toLex (keyOf ea ar, toLex (flagOf ea ar, na))) ∧
    (cmpCore ea eb ar br na nb = .gt ↔
      toLex (keyOf ea ar, toLex (flagOf ea ar, na)) < toLex (keyOf eb br, toLex (flagOf eb br, nb))) := by
  have hpos : 0 < half' := by decide +kernel
  have hcl : ∀ {m n : ℕ}, compare m n = .lt ↔ m < n := fun {m n} => Nat.compare_eq_lt
  have hcg : ∀ {m n : ℕ}, compare m n = .gt ↔ n < m := fun {m n} => Nat.compare_eq_gt
  cases ea with
  | nan => exact absurd rfl ha
  | inf s =>
    cases eb with
    | nan => exact absurd rfl hb
    | inf t =>
      have hsub : (inf s - inf t : F32).abs < (0.5 : F32) ↔ False := by
        cases s <;> cases t <;> decide +kernel
      unfold cmpCore
      simp only [hsub, false_and, if_false]
      cases s <;> cases t <;>
        simp [cmpOr, partialCmp, isNaN, keyOf, flagOf, toW, Prod.Lex.toLex_lt_toLex, hcl, hcg, lt_def]
    | fin w hw =>
      have hsub : (inf s - fin w hw : F32).abs < (0.5 : F32) ↔ False := by
        rw [sub_eq, neg_fin, inf_add_fin]
        cases s <;> decide +kernel
      unfold cmpCore
      simp only [hsub, false_and, if_false]
      simp only [keyOf]
      generalize (w + if br = true then half' else 0) = z
      have h1 := coe_lt_top' w
      have h2 := coe_lt_top' z
      cases s <;>
        simp [cmpOr, partialCmp, isNaN, flagOf, toW, Prod.Lex.toLex_lt_toLex, lt_def, h1, h2, h2.ne']
  | fin v hv =>
    cases eb with
    | nan => exact absurd rfl hb
    | inf t =>
      have hsub : (fin v hv - inf t : F32).abs < (0.5 : F32) ↔ False := by
        rw [sub_eq]
        cases t <;> exact iff_of_false (by rw [show (-inf _ : F32) = inf _ from rfl, fin_add_inf]; decide +kernel) not_false
      unfold cmpCore
      simp only [hsub, false_and, if_false]
      simp only [keyOf]
      generalize (v + if ar = true then half' else 0) = z
      have h1 := coe_lt_top' v
      have h2 := coe_lt_top' z
      cases t <;>
        simp [cmpOr, partialCmp, isNaN, flagOf, toW, Prod.Lex.toLex_lt_toLex, lt_def, h1, h2, h2.ne']
    | fin w hw =>
      rw [cmpCore_fin]
      simp only [keyOf, flagOf, Prod.Lex.toLex_lt_toLex, WithBot.coe_lt_coe, WithTop.coe_lt_coe,
        WithBot.coe_inj, WithTop.coe_inj]
      have habs : |v - w| < half' ↔ v - w < half' ∧ w - v < half' := by
        rw [abs_lt]; constructor <;> rintro ⟨h1, h2⟩ <;> constructor <;> linarith
      simp only [habs]
      cases ar <;> cases br <;> simp only [Bool.false_eq_true, if_true, if_false, and_true, and_false, false_and, true_and, reduceCtorEq, add_zero]
      · split_ifs with h1 h2 <;> simp [hcl, hcg] <;> grind
      · split_ifs with h1 h2 h3 <;> simp [hcl, hcg] <;> grind
      · split_ifs with h1 h2 h3 <;> simp [hcl, hcg] <;> grind
      · split_ifs with h1 h2 <;> simp [hcl, hcg] <;> grind

theorem cmpEst_lt {a b : Est} (ha : a.conf ≠ nan) (hb : b.conf ≠ nan) : cmpEst a b = .lt ↔ rank b < rank a := by
  rw [cmpEst_core]; exact (cmpCore_spec (effConf_ne_nan ha) (effConf_ne_nan hb) _ _ _ _).1

theorem cmpEst_gt {a b : Est} (ha : a.conf ≠ nan) (hb : b.conf ≠ nan) : cmpEst a b = .gt ↔ rank a < rank b := by
  rw [cmpEst_core]; exact (cmpCore_spec (effConf_ne_nan ha) (effConf_ne_nan hb) _ _ _ _).2

/-! ### Octave correction and selection -/

theorem octaveDown_bpm (t : F32) (a : Cand) (cs : List Cand) :
    (octaveDown t a cs).conf = a.conf ∧ ((octaveDown t a cs).bpm = a.bpm ∨ ∃ c ∈ cs, (octaveDown t a cs).bpm = c.bpm) := by
  induction cs with
  | nil => exact ⟨rfl, .inl rfl⟩
  | cons c cs ih =>
    unfold octaveDown
    split_ifs
    · exact ⟨rfl, .inr ⟨c, by simp, rfl⟩⟩
    · refine ⟨ih.1, ih.2.imp id ?_⟩
      rintro ⟨d, hd, h⟩
      exact ⟨d, List.mem_cons_of_mem _ hd, h⟩

theorem octaveUp_bpm (t : F32) (a : Cand) (cs : List Cand) :
    (octaveUp t a cs).conf = a.conf ∧ ((octaveUp t a cs).bpm = a.bpm ∨ ∃ c ∈ cs, (octaveUp t a cs).bpm = c.bpm) := by
  induction cs with
  | nil => exact ⟨rfl, .inl rfl⟩
  | cons c cs ih =>
    unfold octaveUp
    split_ifs
    · exact ⟨rfl, .inr ⟨c, by simp, rfl⟩⟩
    · refine ⟨ih.1, ih.2.imp id ?_⟩
      rintro ⟨d, hd, h⟩
      exact ⟨d, List.mem_cons_of_mem _ hd, h⟩

theorem mem_addReasonable {cs kept : List Cand} {c : Cand} (h : c ∈ addReasonable cs kept) :
    c ∈ kept ∨ c ∈ cs := by
  induction cs generalizing kept with
  | nil => exact .inl h
  | cons d cs ih =>
    unfold addReasonable at h
    split_ifs at h
    · rcases ih h with h | h
      · rcases List.mem_append.1 h with h | h
        · exact .inl h
        · exact .inr (by simp_all)
      · exact .inr (List.mem_cons_of_mem _ h)
    · exact (ih h).imp id (List.mem_cons_of_mem _)

theorem prefix_addReasonable (cs kept : List Cand) : kept <+: addReasonable cs kept := by
  induction cs generalizing kept with
  | nil => exact List.prefix_refl _
  | cons d cs ih =>
    unfold addReasonable
    split_ifs
    · exact (List.prefix_append _ _).trans (ih _)
    · exact ih _

theorem addReasonable_length_le (cs kept : List Cand) : (addReasonable cs kept).length ≤ kept.length + cs.length := by
  induction cs generalizing kept with
  | nil => simp [addReasonable]
  | cons d cs ih =>
    unfold addReasonable
    split_ifs
    · have := ih (kept ++ [d]); simp at *; omega
    · have := ih kept; simp at *; omega

theorem sub_self_abs {x : F32} (h : x.isFinite = true) : (x - x).abs < (1 : F32) := by
  obtain ⟨v, hv, rfl⟩ := isFinite_iff.1 h
  rw [sub_fin, _root_.sub_self]
  decide +kernel

/-- candidates that are already kept are not added again -/
theorem addReasonable_append {pre cs kept : List Cand} (hk : ∀ c ∈ pre, c ∈ kept)
    (hf : ∀ c ∈ pre, c.bpm.isFinite = true) : addReasonable (pre ++ cs) kept = addReasonable cs kept := by
  induction pre with
  | nil => rfl
  | cons d pre ih =>
    rw [List.cons_append, addReasonable, if_neg, ih (fun c hc => hk c (by simp [hc])) (fun c hc => hf c (by simp [hc]))]
    simp only [Bool.and_eq_true, Bool.not_eq_true', not_and, Bool.not_eq_false]
    intro _
    rw [List.any_eq_true]
    exact ⟨d, hk d (by simp), decide_eq_true (sub_self_abs (hf d (by simp)))⟩

/-! ### Grouping -/

theorem addGroup_counts (c : Cand) (gs : List Group) :
    ((addGroup c gs).map Group.count).sum = (gs.map Group.count).sum + 1 ∧ addGroup c gs ≠ [] := by
  induction gs with
  | nil => simp [addGroup]
  | cons g gs ih =>
    unfold addGroup
    split_ifs
    · simp; omega
    · simp only [List.map_cons, List.sum_cons, ih.1]
      exact ⟨by omega, by simp⟩

theorem foldl_addGroup_counts (L : List Cand) (gs : List Group) :
    ((L.foldl (fun gs c => addGroup c gs) gs).map Group.count).sum = (gs.map Group.count).sum + L.length := by
  induction L generalizing gs with
  | nil => simp
  | cons c L ih => rw [List.foldl_cons, ih, (addGroup_counts c gs).1, List.length_cons]; omega

/-- an invariant of groups established by `addGroup` -/
theorem addGroup_inv {P : Group → Prop} {c : Cand} {gs : List Group} (hg : ∀ g ∈ gs, P g)
    (hnew : P ⟨c.bpm, c.conf, 1, c.conf⟩)
    (hadd : ∀ g ∈ gs, P g → P ⟨(g.bpm * F32.ofNat g.count + c.bpm) / F32.ofNat (g.count + 1), g.total + c.conf,
      g.count + 1, F32.max g.maxC c.conf⟩) : ∀ g ∈ addGroup c gs, P g := by
  induction gs with
  | nil => simpa [addGroup] using hnew
  | cons g gs ih =>
    unfold addGroup
    split_ifs
    · intro h hh
      rcases List.mem_cons.1 hh with rfl | hh
      · exact hadd g (by simp) (hg g (by simp))
      · exact hg h (by simp [hh])
    · intro h hh
      rcases List.mem_cons.1 hh with rfl | hh
      · exact hg _ (by simp)
      · exact ih (fun g' h' => hg g' (by simp [h'])) (fun g' h' => hadd g' (by simp [h'])) h hh

theorem count_le_sum {gs : List Group} {g : Group} (h : g ∈ gs) : g.count ≤ (gs.map Group.count).sum :=
  List.single_le_sum (by simp) _ (List.mem_map.2 ⟨g, h, rfl⟩)

theorem foldl_addGroup_inv {P : Group → Prop} {N : ℕ} (L : List Cand) (gs : List Group)
    (hN : (gs.map Group.count).sum + L.length ≤ N) (hg : ∀ g ∈ gs, P g)
    (hnew : ∀ c ∈ L, P ⟨c.bpm, c.conf, 1, c.conf⟩)
    (hadd : ∀ c ∈ L, ∀ g, g.count < N → P g → P ⟨(g.bpm * F32.ofNat g.count + c.bpm) / F32.ofNat (g.count + 1),
      g.total + c.conf, g.count + 1, F32.max g.maxC c.conf⟩) :
    ∀ g ∈ L.foldl (fun gs c => addGroup c gs) gs, P g := by
  induction L generalizing gs with
  | nil => exact hg
  | cons c L ih =>
    rw [List.foldl_cons]
    apply ih
    · rw [(addGroup_counts c gs).1]; simp at hN; omega
    · refine addGroup_inv hg (hnew c (by simp)) fun g hg' hp => hadd c (by simp) g ?_ hp
      have := count_le_sum hg'
      simp at hN; omega
    · exact fun c' h' => hnew c' (by simp [h'])
    · exact fun c' h' => hadd c' (by simp [h'])

/-! ### Rounding of the running mean -/

/-- unit roundoff of binary32 -/
def uu : ℚ := 1 / 2 ^ 24

theorem pow2_m24 : pow2 (-24) = uu := by decide +kernel

theorem rndQ_rel {q : ℚ} (h : pow2 (-126) ≤ q) : q * (1 - uu) ≤ rndQ q ∧ rndQ q ≤ q * (1 + uu) := by
  have hp := pow2_pos (-126)
  have h0 : 0 ≤ q := by linarith
  have := abs_rndQ_sub_le_rel (q := q) (by rw [abs_of_nonneg h0]; exact h)
  rw [abs_of_nonneg h0, pow2_m24, abs_le] at this
  constructor <;> linarith [this.1, this.2]

theorem low_chain {A lo v w n r1 r2 r3 : ℚ} {k : ℕ} (hA0 : 0 ≤ A) (hA1 : A ≤ 1) (hlo : 0 ≤ lo) (hn : 0 ≤ n)
    (h1 : lo * A ^ k ≤ v) (h3 : lo ≤ w) (e1 : v * n * A ≤ r1) (e2 : (r1 + w) * A ≤ r2)
    (e3 : r2 / (n + 1) * A ≤ r3) : lo * A ^ (k + 3) ≤ r3 := by
  have hn0 : (0 : ℚ) < n + 1 := by linarith
  have hk1 : A ^ k * A ≤ 1 := by
    have := pow_le_one₀ (n := k) hA0 hA1
    exact mul_le_one₀ this hA0 hA1
  have s1 : lo * A ^ k * (n * A) ≤ r1 := by
    have : lo * A ^ k * (n * A) ≤ v * (n * A) := _root_.mul_le_mul_of_nonneg_right h1 (by positivity)
    linarith
  have s0 : lo * (A ^ k * A) ≤ lo * 1 := _root_.mul_le_mul_of_nonneg_left hk1 hlo
  have s2 : lo * A ^ k * A * (n + 1) ≤ r1 + w := by linarith
  have s3 : lo * A ^ k * A * (n + 1) * A ≤ r2 := le_trans (_root_.mul_le_mul_of_nonneg_right s2 hA0) e2
  have s4 : lo * A ^ k * A * A ≤ r2 / (n + 1) := by
    rw [le_div_iff₀ hn0]; linarith
  calc lo * A ^ (k + 3) = lo * A ^ k * A * A * A := by ring
    _ ≤ r2 / (n + 1) * A := _root_.mul_le_mul_of_nonneg_right s4 hA0
    _ ≤ r3 := e3

theorem high_chain {A hi v w n r1 r2 r3 : ℚ} {k : ℕ} (hA1 : 1 ≤ A) (hhi : 0 ≤ hi) (hn : 0 ≤ n)
    (h1 : v ≤ hi * A ^ k) (h3 : w ≤ hi) (e1 : r1 ≤ v * n * A) (e2 : r2 ≤ (r1 + w) * A)
    (e3 : r3 ≤ r2 / (n + 1) * A) : r3 ≤ hi * A ^ (k + 3) := by
  have hn0 : (0 : ℚ) < n + 1 := by linarith
  have hA0 : 0 ≤ A := by linarith
  have hk1 : 1 ≤ A ^ k * A := by
    have := one_le_pow₀ (n := k) hA1
    exact one_le_mul_of_one_le_of_one_le this hA1
  have s1 : r1 ≤ hi * A ^ k * (n * A) := by
    have : v * (n * A) ≤ hi * A ^ k * (n * A) := _root_.mul_le_mul_of_nonneg_right h1 (by positivity)
    linarith
  have s0 : hi * 1 ≤ hi * (A ^ k * A) := _root_.mul_le_mul_of_nonneg_left hk1 hhi
  have s2 : r1 + w ≤ hi * A ^ k * A * (n + 1) := by linarith
  have s3 : r2 ≤ hi * A ^ k * A * (n + 1) * A := le_trans e2 (_root_.mul_le_mul_of_nonneg_right s2 hA0)
  have s4 : r2 / (n + 1) ≤ hi * A ^ k * A * A := by
    rw [div_le_iff₀ hn0]; linarith
  calc r3 ≤ r2 / (n + 1) * A := e3
    _ ≤ hi * A ^ k * A * A * A := _root_.mul_le_mul_of_nonneg_right s4 hA0
    _ = hi * A ^ (k + 3) := by ring

theorem mean_step {v w lo hi : ℚ} {hv hw} {n k : ℕ} (hn1 : 1 ≤ n) (hn : n < 2 ^ 24) (hlo : pow2 (-60) ≤ lo)
    (hhi : hi ≤ pow2 60) (h1 : lo * (1 - uu) ^ k ≤ v) (h2 : v ≤ hi * (1 + uu) ^ k) (h3 : lo ≤ w) (h4 : w ≤ hi)
    (hB1 : 1 / 2 ≤ (1 - uu) ^ k) (hB2 : (1 + uu) ^ k ≤ 2) :
    ∃ z hz, (fin v hv * F32.ofNat n + fin w hw) / F32.ofNat (n + 1) = fin z hz ∧
      lo * (1 - uu) ^ (k + 3) ≤ z ∧ z ≤ hi * (1 + uu) ^ (k + 3) := by
  have hu : uu = 1 / 2 ^ 24 := rfl
  have hp60 : pow2 (-60) = 1 / 2 ^ 60 := by decide +kernel
  have hp61 : pow2 60 = 2 ^ 60 := by decide +kernel
  have hp126 : pow2 (-126) = 1 / 2 ^ 126 := by decide +kernel
  rw [hp60] at hlo
  rw [hp61] at hhi
  have hlo0 : 0 < lo := lt_of_lt_of_le (by norm_num) hlo
  have hhi0 : 0 < hi := by linarith
  have hnq : (1 : ℚ) ≤ n := by exact_mod_cast hn1
  have hnq2 : (n : ℚ) + 1 ≤ 2 ^ 24 := by exact_mod_cast hn
  have hv0 : 1 / 2 ^ 61 ≤ v := by nlinarith
  have hvhi : v ≤ 2 ^ 61 := by nlinarith
  -- the product
  have hq1 : 1 / 2 ^ 61 ≤ v * n := by nlinarith
  have hq1u : v * n ≤ 2 ^ 85 := by nlinarith
  have hr1 := rndQ_rel (q := v * n) (by rw [hp126]; norm_num at hq1 ⊢; linarith)
  have hr1u : rndQ (v * n) ≤ 2 ^ 86 := by rw [hu] at hr1; linarith [hr1.2]
  have hr1l : 0 ≤ rndQ (v * n) := rndQ_nonneg (by nlinarith)
  have hf1 : |rndQ (v * n)| < pow2 128 := by
    rw [abs_of_nonneg hr1l, show pow2 128 = 2 ^ 128 by decide +kernel]; linarith
  have e1 : fin v hv * F32.ofNat n = fin (rndQ (v * n)) ⟨onGrid_rndQ _, hf1⟩ := by
    rw [ofNat_exact (by omega), mul_fin, rnd_of_lt hf1]
  -- the sum
  have hq2 : 1 / 2 ^ 60 ≤ rndQ (v * n) + w := by linarith
  have hq2u : rndQ (v * n) + w ≤ 2 ^ 87 := by linarith
  have hr2 := rndQ_rel (q := rndQ (v * n) + w) (by rw [hp126]; norm_num at hq2 ⊢; linarith)
  have hr2u : rndQ (rndQ (v * n) + w) ≤ 2 ^ 88 := by rw [hu] at hr2; linarith [hr2.2]
  have hr2l : 1 / 2 ^ 61 ≤ rndQ (rndQ (v * n) + w) := by
    have := hr2.1
    rw [hu] at this
    linarith
  have hf2 : |rndQ (rndQ (v * n) + w)| < pow2 128 := by
    rw [abs_of_nonneg (by linarith), show pow2 128 = 2 ^ 128 by decide +kernel]; linarith
  have e2 : fin (rndQ (v * n)) ⟨onGrid_rndQ _, hf1⟩ + fin w hw = fin (rndQ (rndQ (v * n) + w)) ⟨onGrid_rndQ _, hf2⟩ := by
    rw [add_fin, rnd_of_lt hf2]
  -- the quotient
  have hn0 : (0 : ℚ) < (n : ℚ) + 1 := by linarith
  have hq3 : 1 / 2 ^ 85 ≤ rndQ (rndQ (v * n) + w) / ((n : ℚ) + 1) := by
    rw [le_div_iff₀ hn0]; linarith
  have hq3u : rndQ (rndQ (v * n) + w) / ((n : ℚ) + 1) ≤ 2 ^ 88 := by
    rw [div_le_iff₀ hn0]; nlinarith
  have hr3 := rndQ_rel (q := rndQ (rndQ (v * n) + w) / ((n : ℚ) + 1)) (by rw [hp126]; norm_num at hq3 ⊢; linarith)
  have hr3u : rndQ (rndQ (rndQ (v * n) + w) / ((n : ℚ) + 1)) ≤ 2 ^ 89 := by rw [hu] at hr3; linarith [hr3.2]
  have hr3l : 0 ≤ rndQ (rndQ (rndQ (v * n) + w) / ((n : ℚ) + 1)) := rndQ_nonneg (by linarith)
  have hf3 : |rndQ (rndQ (rndQ (v * n) + w) / ((n : ℚ) + 1))| < pow2 128 := by
    rw [abs_of_nonneg hr3l, show pow2 128 = 2 ^ 128 by decide +kernel]; linarith
  refine ⟨_, ⟨onGrid_rndQ _, hf3⟩, ?_, ?_, ?_⟩
  · rw [e1, e2, ofNat_exact (n := n + 1) (by omega), div_fin (by exact_mod_cast Nat.succ_ne_zero n)]
    have : ((n + 1 : ℕ) : ℚ) = (n : ℚ) + 1 := by push_cast; rfl
    rw [this, rnd_of_lt hf3]
  · have hA0 : 0 ≤ (1 - uu) := by rw [hu]; norm_num
    have hA1 : (1 - uu) ≤ 1 := by rw [hu]; norm_num
    exact low_chain hA0 hA1 hlo0.le (by linarith) h1 h3 hr1.1 hr2.1 hr3.1
  · have hA1 : 1 ≤ (1 + uu) := by rw [hu]; norm_num
    exact high_chain hA1 hhi0.le (by linarith) h2 h4 hr1.2 hr2.2 hr3.2

theorem onGrid_double {x : ℚ} (h : OnGrid x) : OnGrid (2 * x) := by
  rw [onGrid_iff] at *
  obtain ⟨m, e, hm, he, rfl⟩ := h
  exact ⟨m, e + 1, hm, by omega, by rw [pow2_add, show pow2 1 = 2 from rfl]; ring⟩

/-- two values average exactly inside their span -/
theorem mean_two {v w lo hi : ℚ} {hv hw} (hlo : OnGrid lo ∧ |lo| < pow2 128) (hhi : OnGrid hi ∧ |hi| < pow2 128)
    (hl : |lo| ≤ pow2 60) (hh : |hi| ≤ pow2 60)
    (h1 : lo ≤ v) (h2 : v ≤ hi) (h3 : lo ≤ w) (h4 : w ≤ hi) :
    ∃ z hz, (fin v hv * F32.ofNat 1 + fin w hw) / F32.ofNat 2 = fin z hz ∧ lo ≤ z ∧ z ≤ hi := by
  have hp : pow2 60 = 2 ^ 60 := by decide +kernel
  have h61 : OnGrid (pow2 61) ∧ |pow2 61| < pow2 128 := by decide +kernel
  have hp61 : pow2 61 = 2 ^ 61 := by decide +kernel
  rw [hp, abs_le] at hl hh
  have e1 : fin v hv * F32.ofNat 1 = fin v hv := by
    rw [ofNat_exact (by norm_num), mul_fin]
    have : v * ((1 : ℕ) : ℚ) = v := by push_cast; ring
    rw [this, rnd_val hv]
  have hb : |v + w| ≤ pow2 61 := by
    rw [hp61, abs_le]; constructor <;> linarith [hl.1, hh.2]
  have hf2 : |rndQ (v + w)| < pow2 128 := by
    rw [abs_rndQ]
    refine lt_of_le_of_lt (rndQ_le_of_onGrid h61.1 hb) ?_
    have := h61.2
    rwa [abs_of_pos (pow2_pos _)] at this
  have hlo2 : 2 * lo ≤ rndQ (v + w) := le_rndQ_of_onGrid (onGrid_double hlo.1) (by linarith)
  have hhi2 : rndQ (v + w) ≤ 2 * hi := rndQ_le_of_onGrid (onGrid_double hhi.1) (by linarith)
  have hb2 : |rndQ (v + w) / 2| ≤ pow2 61 := by
    rw [hp61, abs_le]; constructor <;> linarith [hl.1, hh.2]
  have hf3 : |rndQ (rndQ (v + w) / 2)| < pow2 128 := by
    rw [abs_rndQ]
    refine lt_of_le_of_lt (rndQ_le_of_onGrid h61.1 hb2) ?_
    have := h61.2
    rwa [abs_of_pos (pow2_pos _)] at this
  refine ⟨_, ⟨onGrid_rndQ _, hf3⟩, ?_, le_rndQ_of_onGrid hlo.1 (by linarith), rndQ_le_of_onGrid hhi.1 (by linarith)⟩
  rw [e1, add_fin, rnd_of_lt hf2, ofNat_exact (n := 2) (by norm_num), div_fin (by norm_num), ← rnd_of_lt hf3]
  norm_num

theorem pow_bounds {k : ℕ} (h : k ≤ 3 * 2 ^ 20) : 1 / 2 ≤ (1 - uu) ^ k ∧ (1 + uu) ^ k ≤ 2 := by
  have hk : (k : ℚ) ≤ 3 * 2 ^ 20 := by exact_mod_cast h
  have hu : uu = 1 / 2 ^ 24 := rfl
  have h1 : 1 - 3 / 16 ≤ (1 - uu) ^ k := by
    have := one_add_mul_le_pow (a := -uu) (by rw [hu]; norm_num) k
    rw [← sub_eq_add_neg] at this
    refine le_trans ?_ this
    rw [hu]; linarith
  refine ⟨by linarith, ?_⟩
  have h2 : (1 + uu) ^ k * (1 - uu) ^ k ≤ 1 := by
    rw [← mul_pow]
    apply pow_le_one₀ <;> rw [hu] <;> norm_num
  have h3 : 0 < (1 + uu) ^ k := pow_pos (by rw [hu]; norm_num) k
  nlinarith

/-! ### Confidences -/

theorem scale_bound {x k b : F32} (h0 : 0 ≤ x) (hb : x ≤ b) (hk : 0 ≤ k) (hbf : b.isFinite = true)
    (hkf : k.isFinite = true) : 0 ≤ x * k ∧ x * k ≤ b * k := by
  have hxf : x.isFinite = true := isFinite_of_between (lo := 0) (by decide +kernel) hbf h0 hb
  exact ⟨F32.mul_nonneg h0 hk (mul_fin_ne_nan hxf hkf),
    F32.mul_le_mul_of_nonneg_right hb hk (mul_fin_ne_nan hxf hkf) (mul_fin_ne_nan hbf hkf)⟩

theorem div_pos_nonneg {a b : F32} (ha : 0 ≤ a) (hb : 0 < b) (hf : b.isFinite = true) : 0 ≤ a / b := by
  obtain ⟨w, hw, rfl⟩ := isFinite_iff.1 hf
  rw [zero_def, fin_lt_fin] at hb
  rcases nonneg_cases ha with rfl | ⟨v, hv, rfl, hv0⟩
  · rw [inf_div_fin, decide_eq_false (not_lt.2 hb.le)]; exact (by decide +kernel)
  · rw [div_fin hb.ne']; exact rnd_nonneg (_root_.div_nonneg hv0 hb.le)

theorem mul_pos_nonneg {a b : F32} (ha : 0 ≤ a) (hb : 0 < b) (hf : b.isFinite = true) : 0 ≤ a * b := by
  obtain ⟨w, hw, rfl⟩ := isFinite_iff.1 hf
  rw [zero_def, fin_lt_fin] at hb
  rcases nonneg_cases ha with rfl | ⟨v, hv, rfl, hv0⟩
  · rw [inf_mul_fin, if_neg hb.ne', decide_eq_false (not_lt.2 hb.le)]; exact (by decide +kernel)
  · rw [mul_fin]; exact rnd_nonneg (_root_.mul_nonneg hv0 hb.le)

theorem estOf_conf {d : Bool} {g : Group} (ht : 0 ≤ g.total) (hm : 0 ≤ g.maxC) (hc : g.count ≤ 2 ^ 24) :
    0 ≤ (estOf d g).conf ∧ (estOf d g).conf ≤ 1 := by
  have h1 : ∀ x : F32, 0 ≤ x → 0 ≤ F32.min x 1 ∧ F32.min x 1 ≤ 1 := fun x hx =>
    ⟨le_min hx zero_le_one, min_le_right (by decide +kernel)⟩
  have key : ∀ c : F32, 0 ≤ c ∧ c ≤ 1 → 0 ≤ (if d && g.count == 1 then c * 0.7 else c) ∧
      (if d && g.count == 1 then c * 0.7 else c) ≤ 1 := by
    intro c hc
    split_ifs
    · have := scale_bound (k := 0.7) hc.1 hc.2 (by decide +kernel) (by decide +kernel) (by decide +kernel)
      exact ⟨this.1, le_trans this.2 (by decide +kernel)⟩
    · exact hc
  unfold estOf
  dsimp only
  apply key
  split_ifs with h2
  · apply h1
    have hcp : 0 < F32.ofNat g.count := ofNat_pos (by omega)
    have hcf : (F32.ofNat g.count).isFinite = true := ofNat_finite (le_trans hc (by norm_num))
    exact mul_pos_nonneg (div_pos_nonneg (F32.add_nonneg (div_pos_nonneg ht hcp hcf) hm) (by decide +kernel)
      (by decide +kernel)) (by decide +kernel) (by decide +kernel)
  · exact h1 _ ht

theorem boost_conf {ac cb : List Cand} {e : Est} (h0 : 0 ≤ e.conf) (h1 : e.conf ≤ 1) :
    0 ≤ (boost ac cb e).conf ∧ (boost ac cb e).conf ≤ 1.5 * 1.4 := by
  have key : ∀ c : F32, 0 ≤ c ∧ c ≤ 1.5 → ∀ b : Bool, 0 ≤ (if b = true then c * 1.4 else c) ∧
      (if b = true then c * 1.4 else c) ≤ 1.5 * 1.4 := by
    intro c hc b
    split_ifs
    · exact scale_bound hc.1 hc.2 (by decide +kernel) (by decide +kernel) (by decide +kernel)
    · exact ⟨hc.1, le_trans hc.2 (by decide +kernel)⟩
  unfold boost
  dsimp only
  apply key
  split_ifs
  · have := scale_bound (k := 1.5) h0 h1 (by decide +kernel) (by decide +kernel) (by decide +kernel)
    exact ⟨this.1, le_trans this.2 (by decide +kernel)⟩
  · have := scale_bound (k := 1.3) h0 h1 (by decide +kernel) (by decide +kernel) (by decide +kernel)
    exact ⟨this.1, le_trans this.2 (by decide +kernel)⟩
  · exact ⟨h0, le_trans h1 (by decide +kernel)⟩

theorem mem_modify {α} {l : List α} {i : ℕ} {f : α → α} {x : α} (h : x ∈ l.modify i f) :
    x ∈ l ∨ ∃ y ∈ l, x = f y := by
  induction l generalizing i with
  | nil => simp at h
  | cons a l ih =>
    cases i with
    | zero =>
      simp only [List.modify_zero_cons, List.mem_cons] at h
      rcases h with rfl | h
      · exact .inr ⟨a, by simp, rfl⟩
      · exact .inl (by simp [h])
    | succ i =>
      simp only [List.modify_succ_cons, List.mem_cons] at h
      rcases h with rfl | h
      · exact .inl (by simp)
      · rcases ih h with h | ⟨y, hy, e⟩
        · exact .inl (by simp [h])
        · exact .inr ⟨y, by simp [hy], e⟩

theorem mem_safety {es : List Est} {e : Est} (h : e ∈ safety es) :
    e ∈ es ∨ ∃ y ∈ es, e = { y with conf := y.conf * 2 } := by
  unfold safety at h
  split_ifs at h
  · exact .inl h
  · split at h
    · exact mem_modify h
    · exact .inl h

theorem map_modify_same {α β} (f : α → β) (g : α → α) (h : ∀ a, f (g a) = f a) (l : List α) (i : ℕ) :
    (l.modify i g).map f = l.map f := by
  induction l generalizing i with
  | nil => simp
  | cons a l ih => cases i <;> simp [h, ih]

theorem safety_map {β} (f : Est → β) (hf : ∀ e c, f { e with conf := c } = f e) (es : List Est) :
    (safety es).map f = es.map f := by
  unfold safety
  split_ifs
  · rfl
  · split
    · exact map_modify_same f _ (fun e => hf e _) _ _
    · rfl

end Verif.Period
