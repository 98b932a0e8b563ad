/-
Lemmas on the autocorrelation and comb filter estimators (Model/Period.lean).
-/
import Verif.Model.Period
import Verif.Lemmas.Peaks
import Verif.F32.More

namespace Verif.Period
open Verif Verif.F32

/-! ### autocorrelation -/

/-- local maximum of `s` at `i`, strictly inside -/
def LocMax (s : List F32) (i : ℕ) : Prop :=
  1 ≤ i ∧ i + 1 < s.length ∧ at' s (i - 1) < at' s i ∧ at' s (i + 1) < at' s i

theorem acfPeaksFrom_spec {s : List F32} {off : ℕ} {prom : F32} (hb : s.length + off ≤ 2 ^ 31) :
    ∀ (is : List ℕ) (ps : List (ℕ × F32)), (∀ i ∈ is, 1 ≤ i ∧ i + 1 < s.length) →
      (∀ p ∈ ps, ∃ i, LocMax s i ∧ p = (i + off, at' s i)) →
      ∃ out, acfPeaksFrom s off prom is ps = .ok out ∧ ∀ p ∈ out, ∃ i, LocMax s i ∧ p = (i + off, at' s i) := by
  intro is
  induction is with
  | nil => intro ps _ hps; exact ⟨ps, rfl, hps⟩
  | cons i is ih =>
    intro ps his hps
    have his' : ∀ j ∈ is, 1 ≤ j ∧ j + 1 < s.length := fun j hj => his j (List.mem_cons_of_mem _ hj)
    obtain ⟨h1, h2⟩ := his i List.mem_cons_self
    unfold acfPeaksFrom
    by_cases hc : at' s (i - 1) < at' s i ∧ at' s (i + 1) < at' s i ∧
        prom ≤ at' s i - F32.max (at' s (i - 1)) (at' s (i + 1))
    · rw [if_pos hc]
      have hnew : ∃ j, LocMax s j ∧ (i + off, at' s i) = (j + off, at' s j) :=
        ⟨i, ⟨h1, h2, hc.1, hc.2.1⟩, rfl⟩
      have happ : ∀ qs : List (ℕ × F32), (∀ p ∈ qs, p ∈ ps) →
          ∀ p ∈ qs ++ [(i + off, at' s i)], ∃ j, LocMax s j ∧ p = (j + off, at' s j) := by
        intro qs hqs p hp
        rcases List.mem_append.1 hp with hp | hp
        · exact hps p (hqs p hp)
        · rw [List.mem_singleton.1 hp]; exact hnew
      cases hl : ps.getLast? with
      | none => exact ih _ his' (happ ps (fun p hp => hp))
      | some q =>
        dsimp only
        have hq : q ∈ ps := List.mem_of_getLast? hl
        obtain ⟨j, hj, rfl⟩ := hps q hq
        obtain ⟨_, hj2, _⟩ := hj
        rw [distI32_small (by omega) (by show j + off < _; omega)]
        simp only [R.ok_bind]
        split_ifs
        · exact ih _ his' (happ ps (fun p hp => hp))
        · exact ih _ his' (happ _ (fun p hp => List.dropLast_subset _ hp))
        · exact ih _ his' hps
    · rw [if_neg hc]; exact ih _ his' hps

theorem acfPeaks_spec {s : List F32} {off : ℕ} (hb : s.length + off ≤ 2 ^ 31) :
    ∃ out, acfPeaks s off = .ok out ∧ ∀ p ∈ out, ∃ i, LocMax s i ∧ p = (i + off, at' s i) := by
  unfold acfPeaks
  by_cases h0 : s = []
  · rw [if_pos h0]; exact ⟨[], rfl, by simp⟩
  · rw [if_neg h0]
    dsimp only
    split_ifs
    · exact ⟨[], rfl, by simp⟩
    · obtain ⟨out, e, h⟩ := acfPeaksFrom_spec (prom := F32.foldMax 0 s * 0.1) hb
        (List.range' 1 (s.length - 1 - 1)) [] (by
          intro i hi
          rw [List.mem_range'_1] at hi
          omega) (by simp)
      rw [e]
      exact ⟨_, rfl, fun p hp => h p (by simpa using hp)⟩

theorem nextPow2_spec {n : ℕ} (h : n ≤ 2 ^ 63) :
    ∃ e, nextPow2 n = 2 ^ e ∧ n ≤ 2 ^ e ∧ ∀ j < e, 2 ^ j < n := by
  unfold nextPow2
  cases hf : (List.range 64).find? (fun e => decide (n ≤ 2 ^ e)) with
  | none =>
    have := List.find?_eq_none.1 hf 63 (by simp)
    simp only [decide_eq_true_eq] at this
    exact absurd h this
  | some e =>
    have h1 := List.find?_some hf
    simp only [decide_eq_true_eq] at h1
    refine ⟨e, rfl, h1, ?_⟩
    intro j hj
    by_contra hc
    rw [List.find?_eq_some_iff_getElem] at hf
    obtain ⟨_, i, hi, he, hall⟩ := hf
    simp only [List.getElem_range] at he
    subst he
    have := hall j hj
    simp only [List.getElem_range] at this
    rw [Bool.not_eq_true', decide_eq_false_iff_not] at this
    omega

theorem autocorr_length (ifft : List F32 → ℕ → F32) (sig : List F32) :
    (autocorr ifft sig).length = sig.length := by simp [autocorr]

theorem autocorr_nonneg (ifft : List F32 → ℕ → F32) (sig : List F32) : ∀ x ∈ autocorr ifft sig, 0 ≤ x := by
  intro x hx
  simp only [autocorr, List.mem_map] at hx
  obtain ⟨k, _, rfl⟩ := hx
  exact le_max_right zero_ne_nan

theorem foldl_max_ge (l : List ℕ) : ∀ a, a ≤ l.foldl Nat.max a ∧ ∀ x ∈ l, x ≤ l.foldl Nat.max a := by
  induction l with
  | nil => intro a; exact ⟨Nat.le_refl _, by simp⟩
  | cons y l ih =>
    intro a
    obtain ⟨h1, h2⟩ := ih (Nat.max a y)
    refine ⟨Nat.le_trans (Nat.le_max_left a y) h1, ?_⟩
    intro x hx
    rcases List.mem_cons.1 hx with rfl | hx
    · exact Nat.le_trans (Nat.le_max_right a x) h1
    · exact h2 x hx

theorem foldl_max_mem (l : List ℕ) : ∀ a, l.foldl Nat.max a = a ∨ l.foldl Nat.max a ∈ l := by
  induction l with
  | nil => intro a; exact .inl rfl
  | cons y l ih =>
    intro a
    rcases ih (Nat.max a y) with h | h
    · rw [List.foldl_cons, h]
      rcases Nat.le_total a y with hy | hy
      · right; rw [show Nat.max a y = y from Nat.max_eq_right hy]; exact List.mem_cons_self
      · left; exact Nat.max_eq_left hy
    · right; exact List.mem_cons_of_mem _ h

/-! ### comb filter -/

theorem score_unit {onsets : List ℕ} {sr : ℕ} {bpm tol x : F32} (h : score onsets sr bpm tol = .ok x) :
    0 ≤ x ∧ x ≤ 1 := by
  unfold score at h
  split at h
  · rw [← Except.ok.inj h]; exact ⟨le_refl zero_ne_nan, zero_le_one⟩
  · dsimp only at h
    split_ifs at h with h1 h2
    rw [← Except.ok.inj h]
    generalize (F32.ceil _).toUsize = n at h2 ⊢
    have hn : n + 1 ≤ 2 ^ 127 := by unfold usizeMax at h2; omega
    have hfin := ofNat_finite hn
    have hpos : 0 < F32.ofNat (n + 1) := ofNat_pos (Nat.succ_pos n)
    have hle : (List.range (n + 1)).countP (aligned onsets (60 * F32.ofNat sr / bpm)
        (60 * F32.ofNat sr / bpm * tol)) ≤ n + 1 := by
      have := List.countP_le_length (p := aligned onsets (60 * F32.ofNat sr / bpm)
        (60 * F32.ofNat sr / bpm * tol)) (l := List.range (n + 1))
      simpa using this
    have hm := ofNat_mono hle
    exact F32.div_le_one (ofNat_nonneg _) hm hpos hfin

theorem combLoop_mem {onsets : List ℕ} {sr : ℕ} {maxB res lo : F32} (hlo : 0 ≤ lo) (hres : ¬ res ≤ 0) :
    ∀ (fuel : ℕ) (b : F32) (cs : List (F32 × F32)), (lo ≤ b ∨ b = nan) →
      combLoop onsets sr maxB res fuel b = .ok cs →
      ∀ c ∈ cs, lo ≤ c.1 ∧ c.1 ≤ maxB + EPS ∧ 0 ≤ c.2 ∧ c.2 ≤ 1 := by
  intro fuel
  induction fuel with
  | zero =>
    intro b cs hb h
    unfold combLoop at h
    split_ifs at h
    rw [← Except.ok.inj h]; simp
  | succ n ih =>
    intro b cs hb h
    unfold combLoop at h
    split_ifs at h with hle
    · obtain ⟨sc, h1, h⟩ := R.bind_eq_ok.1 h
      obtain ⟨rest, h2, h⟩ := R.bind_eq_ok.1 h
      obtain rfl := Except.ok.inj h
      have hb' : lo ≤ b := by
        rcases hb with hb | hb
        · exact hb
        · exact absurd hb (ne_nan_left hle)
      have hnext : lo ≤ b + res ∨ b + res = nan := by
        by_cases hn : res = nan
        · right; rw [hn]; simp
        · left
          have hr : 0 ≤ res := le_of_lt (lt_of_not_le zero_ne_nan hn hres)
          exact le_trans hb' (le_add_right (le_trans hlo hb') hr)
      intro c hc
      rcases List.mem_cons.1 hc with rfl | hc
      · exact ⟨hb', hle, score_unit h1⟩
      · exact ih _ _ hnext h2 c hc
    · rw [← Except.ok.inj h]; simp

theorem maxScore_spec : ∀ (cs : List (F32 × F32)) (a : F32), a ≠ nan → (∀ c ∈ cs, c.2 ≠ nan) →
    let m := cs.foldl (fun m c => if m < c.2 then c.2 else m) a
    a ≤ m ∧ (∀ c ∈ cs, c.2 ≤ m) ∧ (m = a ∨ ∃ c ∈ cs, c.2 = m) := by
  intro cs
  induction cs with
  | nil => intro a ha _; exact ⟨le_refl ha, by simp, .inl rfl⟩
  | cons c cs ih =>
    intro a ha hcs
    have hc := hcs c List.mem_cons_self
    dsimp only
    rw [List.foldl_cons]
    by_cases h : a < c.2
    · rw [if_pos h]
      obtain ⟨h1, h2, h3⟩ := ih c.2 hc (fun x hx => hcs x (List.mem_cons_of_mem _ hx))
      refine ⟨le_trans (le_of_lt h) h1, ?_, ?_⟩
      · intro x hx
        rcases List.mem_cons.1 hx with rfl | hx
        · exact h1
        · exact h2 x hx
      · rcases h3 with h3 | ⟨x, hx, h3⟩
        · right; exact ⟨c, List.mem_cons_self, h3.symm⟩
        · right; exact ⟨x, List.mem_cons_of_mem _ hx, h3⟩
    · rw [if_neg h]
      obtain ⟨h1, h2, h3⟩ := ih a ha (fun x hx => hcs x (List.mem_cons_of_mem _ hx))
      refine ⟨h1, ?_, ?_⟩
      · intro x hx
        rcases List.mem_cons.1 hx with rfl | hx
        · exact le_trans (le_of_not_lt hc ha h) h1
        · exact h2 x hx
      · rcases h3 with h3 | ⟨x, hx, h3⟩
        · left; exact h3
        · right; exact ⟨x, List.mem_cons_of_mem _ hx, h3⟩

theorem div_self {x : F32} (h : 0 < x) (hf : x.isFinite = true) : x / x = 1 := by
  obtain ⟨v, hv, rfl⟩ := isFinite_iff.1 hf
  rw [zero_def, fin_lt_fin] at h
  rw [div_fin (ne_of_gt h), _root_.div_self (ne_of_gt h), rnd_one]

theorem combFinish_spec {cs : List (F32 × F32)} (hcs : ∀ c ∈ cs, 0 ≤ c.2 ∧ c.2 ≤ 1) :
    (∀ c ∈ combFinish cs, (∃ x ∈ cs, c.bpm = x.1 ∧ c.conf = x.2 / maxScore cs) ∧ 0.1 ≤ c.conf ∧ c.conf ≤ 1) ∧
    (combFinish cs).Pairwise (fun a b => b.conf ≤ a.conf) ∧
    (∀ c, (combFinish cs).head? = some c → c.conf = 1) := by
  have hms := maxScore_spec cs 0 zero_ne_nan (fun c hc => ne_nan_right (hcs c hc).1)
  change 0 ≤ maxScore cs ∧ (∀ c ∈ cs, c.2 ≤ maxScore cs) ∧ (maxScore cs = 0 ∨ ∃ c ∈ cs, c.2 = maxScore cs) at hms
  obtain ⟨hm0, hmax, hatt⟩ := hms
  unfold combFinish
  dsimp only
  by_cases hE : EPS < maxScore cs
  · rw [if_pos hE]
    have hpos : 0 < maxScore cs := lt_trans (by decide +kernel) hE
    have hne : maxScore cs ≠ 0 := fun h => by rw [h] at hpos; exact lt_irrefl _ hpos
    obtain ⟨top, htop, htopv⟩ := hatt.resolve_left hne
    have hfin : (maxScore cs).isFinite = true := by
      rw [← htopv]; exact isFinite_of_unit (hcs top htop).1 (hcs top htop).2
    have hall : ∀ c ∈ cs.map (fun c => Cand.mk c.1 (c.2 / maxScore cs)),
        (∃ x ∈ cs, c.bpm = x.1 ∧ c.conf = x.2 / maxScore cs) ∧ c.conf ≠ nan ∧ c.conf ≤ 1 := by
      intro c hc
      obtain ⟨x, hx, rfl⟩ := List.mem_map.1 hc
      refine ⟨⟨x, hx, rfl, rfl⟩, ?_, ?_⟩
      · exact div_fin_ne_nan (isFinite_of_unit (hcs x hx).1 (hcs x hx).2) hpos
      · exact (F32.div_le_one (hcs x hx).1 (hmax x hx) hpos hfin).2
    have hpw : ((sortDesc Cand.conf (cs.map (fun c => Cand.mk c.1 (c.2 / maxScore cs)))).filter
        (fun c => decide (0.1 ≤ c.conf))).Pairwise (fun a b => b.conf ≤ a.conf) :=
      (sortDesc_pairwise (fun a ha => (hall a ha).2.1)).filter _
    refine ⟨?_, hpw, ?_⟩
    · intro c hc
      simp only [List.mem_filter, mem_sortDesc, decide_eq_true_eq] at hc
      exact ⟨(hall c hc.1).1, hc.2, (hall c hc.1).2.2⟩
    · intro c hc
      have hmem := List.mem_of_mem_head? (Option.mem_def.2 hc)
      have hmem' := hmem
      simp only [List.mem_filter, mem_sortDesc, decide_eq_true_eq] at hmem'
      apply le_antisymm (hall c hmem'.1).2.2
      have h1 : Cand.mk top.1 1 ∈ (sortDesc Cand.conf (cs.map (fun c => Cand.mk c.1 (c.2 / maxScore cs)))).filter
          (fun c => decide (0.1 ≤ c.conf)) := by
        simp only [List.mem_filter, mem_sortDesc, decide_eq_true_eq, List.mem_map]
        refine ⟨⟨top, htop, ?_⟩, by decide +kernel⟩
        rw [htopv, div_self hpos hfin]
      obtain ⟨l, hl⟩ := List.head?_eq_some_iff.1 hc
      rw [hl] at h1 hpw
      rcases List.mem_cons.1 h1 with h1 | h1
      · rw [← h1]; exact le_refl one_ne_nan
      · exact (List.pairwise_cons.1 hpw).1 _ h1
  · rw [if_neg hE]
    have hnil : (sortDesc Cand.conf (cs.map (fun c => Cand.mk c.1 0))).filter (fun c => decide (0.1 ≤ c.conf)) = [] := by
      rw [List.filter_eq_nil_iff]
      intro c hc
      rw [mem_sortDesc] at hc
      obtain ⟨x, hx, rfl⟩ := List.mem_map.1 hc
      rw [decide_eq_true_eq]
      show ¬ (0.1 : F32) ≤ 0
      decide +kernel
    rw [hnil]
    simp

/-- Progress: adding an increment of at least `2^-22` of the limit moves at least half the increment. -/
theorem add_progress {v r L : ℚ} (hv : OnGrid v ∧ |v| < pow2 128) (hr : OnGrid r ∧ |r| < pow2 128)
    (hv0 : 0 ≤ v) (hr0 : 0 < r) (hvL : v ≤ L) (hL : L ≤ 2 ^ 22 * r) :
    fin v hv + fin r hr = inf false ∨ ∃ w hw, fin v hv + fin r hr = fin w hw ∧ v + r / 2 ≤ w := by
  rw [add_fin]
  have hlow : v + r / 2 ≤ rndQ (v + r) := by
    have hg := onGrid_dvd hr.1
    have hr1 : pow2 (-149) ≤ r := by
      have := grid_sub_ge grid_zero.1 hr.1 hr0
      simpa using this
    rcases le_or_gt (pow2 (-126)) |v + r| with h | h
    · have he := abs_rndQ_sub_le_rel h
      rw [abs_le] at he
      have hp : pow2 (-24) = 1 / 2 ^ 24 := by rw [pow2_eq]; norm_num
      rw [abs_of_nonneg (by linarith), hp] at he
      have := he.1
      nlinarith
    · have he := abs_rndQ_sub_le_sub (_root_.le_of_lt h)
      rw [abs_le] at he
      have hp : pow2 (-149) = 2 * pow2 (-150) := by rw [pow2_eq, pow2_eq]; norm_num
      have := he.1
      linarith
  unfold rnd
  split_ifs with h1 h2
  · left; rfl
  · exfalso
    have := pow2_pos 128
    linarith
  · right; exact ⟨rndQ (v + r), rnd_aux h1 h2, rfl, hlow⟩

theorem combLoop_fuel {onsets : List ℕ} {sr : ℕ} {maxB res : F32} {L r : ℚ} {hLg hr}
    (hlim : maxB + EPS = fin L hLg) (hres : res = fin r hr) (hr0 : 0 < r) (hL : L ≤ 2 ^ 22 * r) :
    ∀ (fuel : ℕ) (v : ℚ) (hv : OnGrid v ∧ |v| < pow2 128), 0 ≤ v → L - v < fuel * (r / 2) →
      combLoop onsets sr maxB res fuel (fin v hv) ≠ R.outOfFuel ∧
      ∀ k, combLoop onsets sr maxB res (fuel + k) (fin v hv) = combLoop onsets sr maxB res fuel (fin v hv) := by
  have hinf : ∀ f, combLoop onsets sr maxB res f (inf false) = .ok [] := by
    intro f
    cases f <;> (unfold combLoop; rw [hlim, if_neg (by simp)])
  intro fuel
  induction fuel with
  | zero =>
    intro v hv hv0 h
    have hn : ¬ (fin v hv ≤ maxB + EPS) := by
      rw [hlim, fin_le_fin]; simp at h; linarith
    refine ⟨?_, ?_⟩
    · unfold combLoop; rw [if_neg hn]; simp [R.outOfFuel]
    · intro k
      cases k with
      | zero => rfl
      | succ k =>
        rw [Nat.zero_add]
        unfold combLoop
        rw [if_neg hn, if_neg hn]
  | succ n ih =>
    intro v hv hv0 h
    by_cases hle : fin v hv ≤ maxB + EPS
    · have hvL : v ≤ L := by rw [hlim, fin_le_fin] at hle; exact hle
      have hstep : combLoop onsets sr maxB res n (fin v hv + res) ≠ R.outOfFuel ∧
          ∀ k, combLoop onsets sr maxB res (n + k) (fin v hv + res) = combLoop onsets sr maxB res n (fin v hv + res) := by
        rw [hres]
        rcases add_progress hv hr hv0 hr0 hvL hL with e | ⟨w, hw, e, hp⟩
        · rw [e, ← hres, hinf]
          refine ⟨by simp [R.outOfFuel], fun k => by rw [hinf]⟩
        · rw [e, ← hres]
          apply ih w hw (by linarith)
          push_cast at h
          linarith
      constructor
      · intro hc
        unfold combLoop at hc
        rw [if_pos hle] at hc
        dsimp only at hc
        cases hs : score onsets sr (fin v hv) (F32.clamp (0.1 * (120 / fin v hv)) 0.05 0.15) with
        | error e =>
          rw [hs] at hc
          simp only [R.error_bind] at hc
          injection hc with hc
          unfold score at hs
          subst hc
          split at hs
          · simp at hs
          · dsimp only at hs; split_ifs at hs <;> simp at hs
        | ok sc =>
          rw [hs] at hc
          simp only [R.ok_bind] at hc
          cases hr' : combLoop onsets sr maxB res n (fin v hv + res) with
          | error e =>
            rw [hr'] at hc
            simp only [R.error_bind] at hc
            exact hstep.1 (by rw [hr', hc])
          | ok rest => rw [hr'] at hc; simp at hc
      · intro k
        rw [show n + 1 + k = (n + k) + 1 by omega]
        unfold combLoop
        rw [if_pos hle, if_pos hle, hstep.2 k]
    · refine ⟨?_, ?_⟩
      · unfold combLoop; rw [if_neg hle]; simp [R.outOfFuel]
      · intro k
        rw [show n + 1 + k = (n + k) + 1 by omega]
        unfold combLoop
        rw [if_neg hle, if_neg hle]

end Verif.Period
