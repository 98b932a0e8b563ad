/-
Property theorems C142: octave relations between the two tempo estimators, and the documented confidences
(src/features/period/candidate_filter.rs lines 114-443).
-/
import Verif.Props.Merge

namespace Verif.Props
open Verif Verif.Period F32

/-- Specification: `x` is `r` times `y`, to within `3/128` (about 2.3 %, a little less than 50 cents), as real numbers. -/
def NearTimes (r : ℚ) (x y : F32) : Prop :=
  x.isFinite = true ∧ y.isFinite = true ∧ |x.val - r * y.val| ≤ r * y.val * (3 / 128)

/-- the octave test of the code accepts a quotient that is twice up to `3/128` -/
theorem octave_test {x y t : F32} (h : NearTimes 2 x y) (hy : 0 < y) (ht : 1.0275 ≤ t) :
    (x / y / 2 - 1).abs < t - 1 := by
  obtain ⟨hx, hyf, hb⟩ := h
  obtain ⟨v, hv, rfl⟩ := isFinite_iff.1 hx
  obtain ⟨w, hw, rfl⟩ := isFinite_iff.1 hyf
  have w0 : 0 < w := by simpa [zero_def] using hy
  have hb' := abs_le.1 hb
  change -(2 * w * (3 / 128)) ≤ v - 2 * w ∧ v - 2 * w ≤ 2 * w * (3 / 128) at hb'
  have l1 : (125 / 64 : ℚ) ≤ v / w := by rw [le_div_iff₀ w0]; linarith [hb'.1]
  have u1 : v / w ≤ (131 / 64 : ℚ) := by rw [div_le_iff₀ w0]; linarith [hb'.2]
  obtain ⟨g1, e1, l2, u2⟩ := rnd_between (by decide +kernel) (by decide +kernel) l1 u1
  have h2 : (2 : F32) = fin 2 (by decide +kernel) := by decide +kernel
  have h1 : (1 : F32) = fin 1 (by decide +kernel) := by decide +kernel
  rw [div_fin (_root_.ne_of_gt w0), e1, h2, div_fin (by norm_num)]
  obtain ⟨g2, e2, l3, u3⟩ := rnd_between (x := rndQ (v / w) / 2) (a := 125 / 128) (b := 131 / 128)
    (by decide +kernel) (by decide +kernel) (by linarith) (by linarith)
  rw [e2, h1, sub_fin]
  obtain ⟨g3, e3, l4, u4⟩ := rnd_between (x := rndQ (rndQ (v / w) / 2) - 1) (a := -(3 / 128)) (b := 3 / 128)
    (by decide +kernel) (by decide +kernel) (by linarith) (by linarith)
  rw [e3, abs_fin]
  have hlim : fin (7 / 256) (by decide +kernel) ≤ t - fin 1 (by decide +kernel) := by
    have hlit : fin (1 + 7 / 256) (by decide +kernel) ≤ (1.0275 : F32) := by decide +kernel
    have ht' := le_trans hlit ht
    rcases t with _ | (_ | _) | ⟨s, hs⟩
    · simp at ht'
    · exact fin_le_pinf
    · simp at ht'
    · rw [sub_fin]
      exact fin_le_rnd (by rw [fin_le_fin] at ht'; linarith)
  refine lt_of_lt_of_le ?_ hlim
  rw [fin_lt_fin]
  exact _root_.lt_of_le_of_lt (abs_le.2 ⟨l4, u4⟩) (by norm_num)

theorem octaveUp_same {t : F32} {a : Cand} {c : Cand} (h : a.bpm = c.bpm) : (octaveUp t a [c]) = ⟨c.bpm, a.conf⟩ := by
  rcases a with ⟨b, k⟩
  simp only at h
  subst h
  simp [octaveUp]

/-- the average of two equal tempi is that tempo -/
theorem avg_same {x : F32} (h0 : 60 ≤ x) (h1 : x ≤ 180) :
    (x * F32.ofNat 1 + x) / F32.ofNat (1 + 1) = x ∧ (x - x).abs ≤ 2 := by
  have e60 : (60 : F32) = fin 60 (by decide +kernel) := by decide +kernel
  have e180 : (180 : F32) = fin 180 (by decide +kernel) := by decide +kernel
  rw [e60] at h0
  rw [e180] at h1
  obtain ⟨v, hv, rfl, l, u⟩ := between_cases h0 h1
  constructor
  · rw [ofNat_exact (by norm_num), ofNat_exact (by norm_num), mul_fin]
    have ev : rnd (v * ((1 : ℕ) : ℚ)) = fin v hv := by rw [Nat.cast_one, mul_one]; exact rnd_val hv
    have hd : OnGrid (2 * v) ∧ |2 * v| < pow2 128 := by
      refine ⟨Period.onGrid_double hv.1, ?_⟩
      rw [abs_of_nonneg (by linarith)]
      exact _root_.lt_of_le_of_lt (b := 360) (by linarith) (by decide +kernel)
    rw [ev, add_fin, show v + v = 2 * v by ring, rnd_val hd, div_fin (by norm_num)]
    rw [show 2 * v / (((1 + 1 : ℕ)) : ℚ) = v by push_cast; ring]
    exact rnd_val hv
  · rw [sub_fin, _root_.sub_self]
    decide +kernel

theorem min_one {x : F32} (h : x ≤ 1) : F32.min x 1 = x := by
  have e1 : (1 : F32) = fin 1 (by decide +kernel) := by decide +kernel
  rw [e1] at h ⊢
  rcases x with _ | (_ | _) | ⟨v, hv⟩
  · simp at h
  · simp at h
  · rfl
  · rw [fin_le_fin] at h
    unfold F32.min
    rw [if_neg (by simp [isNaN]), if_neg (by simp [isNaN]), if_neg (by rw [fin_lt_fin]; exact _root_.not_lt.2 h)]

/-- once the autocorrelation candidate has the comb tempo, both fall into one group -/
theorem merge_pair {M : Libm} {a c : Cand} {tol : F32} (h0 : 60 ≤ c.bpm) (h1 : c.bpm ≤ 180)
    (h : (octaveUp (M.exp2 (tol / 1200)) (octaveDown (M.exp2 (tol / 1200)) a [c]) [c]).bpm = c.bpm) :
    ∃ k, merge M [a] [c] tol = [⟨c.bpm, k, 2⟩] := by
  have hr : reasonable c.bpm = true := by simp [reasonable, h0, h1]
  have hfin : c.bpm.isFinite = true := isFinite_of_between (lo := 60) (hi := 180) (by decide +kernel) (by decide +kernel) h0 h1
  obtain ⟨hav, hsub⟩ := avg_same h0 h1
  have hm : merge M [a] [c] tol =
      let a' := octaveUp (M.exp2 (tol / 1200)) (octaveDown (M.exp2 (tol / 1200)) a [c]) [c]
      rsort (fun a b => cmpEst a b != .gt) (safety ((([a', c].foldl (fun gs c => addGroup c gs) []).map
        (estOf (disagreement [a'] [c]))).map (boost [a'] [c]))) := by
    have hadd : ∀ a' : Cand, a'.bpm.isFinite = true → addReasonable [a'] [a'] = [a'] := by
      intro a' hf
      have := addReasonable_append (pre := [a']) (cs := []) (kept := [a']) (by simp) (by simpa using hf)
      simpa [addReasonable] using this
    have := hadd _ (by rw [h]; exact hfin)
    simp only [merge, List.map_cons, List.map_nil, List.take_succ_cons, List.take_nil] at this ⊢
    rw [this]
    simp
  rw [hm]
  generalize octaveUp _ _ [c] = a' at h ⊢
  have hg : [a', c].foldl (fun gs c => addGroup c gs) [] = [⟨c.bpm, a'.conf + c.conf, 2, F32.max a'.conf c.conf⟩] := by
    simp only [List.foldl_cons, List.foldl_nil, addGroup, h]
    rw [if_pos hsub, hav]
  simp only [hg, List.map_cons, List.map_nil]
  set e := boost [a'] [c] (estOf (disagreement [a'] [c]) ⟨c.bpm, a'.conf + c.conf, 2, F32.max a'.conf c.conf⟩) with he
  have eb : e.bpm = c.bpm := rfl
  have ea : e.agreement = 2 := rfl
  have hs : safety [e] = [e] := by simp [safety, eb, hr]
  refine ⟨e.conf, ?_⟩
  rw [hs]
  show [e] = _
  rw [← eb, ← ea]

/-- **C142 (partial)**: when autocorrelation and the comb filter each report one tempo, the comb tempo lies in 60-180 BPM and the
autocorrelation tempo is twice it, half it (either within 2.3 %) or equal to it, the merge reports exactly one estimate: the comb
tempo itself, supported by two methods.  This holds for every `exp2` that gives at least 1.0275 for the tolerance (exact for 50
cents: 1.0293).  A lone autocorrelation candidate keeps its tempo and its confidence.  Missing: further candidates (an octave of the
agreed tempo takes the vote away, `C142_violated`) and the documented confidences (`C142_violated_confidence`). -/
theorem C142_octave_partial (M : Libm) (a c : Cand) (tol : F32) (hM : 1.0275 ≤ M.exp2 (tol / 1200)) :
    (60 ≤ c.bpm → c.bpm ≤ 180 → NearTimes 2 a.bpm c.bpm ∨ NearTimes 2 c.bpm a.bpm ∧ 0 < a.bpm ∨ a.bpm = c.bpm →
      ∃ k, merge M [a] [c] tol = [⟨c.bpm, k, 2⟩]) ∧
    (a.bpm.isFinite = true → a.conf ≤ 1 → merge M [a] [] tol = [⟨a.bpm, a.conf, 1⟩]) := by
  constructor
  · intro h0 h1 h
    have hr : reasonable c.bpm = true := by simp [reasonable, h0, h1]
    have hc : 0 < c.bpm := lt_of_lt_of_le (by decide +kernel) h0
    refine merge_pair h0 h1 ?_
    rcases h with h | ⟨h, ha⟩ | h
    · have e : octaveDown (M.exp2 (tol / 1200)) a [c] = ⟨c.bpm, a.conf⟩ := by
        rw [octaveDown, if_pos ⟨octave_test h hc hM, Or.inl hr⟩]
      rw [e, octaveUp_same (a := ⟨c.bpm, a.conf⟩) (c := c) rfl]
    · by_cases hd : (octaveDown (M.exp2 (tol / 1200)) a [c]).bpm = c.bpm
      · rw [octaveUp_same hd]
      · have e : octaveDown (M.exp2 (tol / 1200)) a [c] = a := by
          rw [octaveDown] at hd ⊢
          split_ifs at hd ⊢
          · exact absurd rfl hd
          · rfl
        rw [e, octaveUp, if_pos ⟨octave_test h ha hM, hr⟩]
    · have e : (octaveDown (M.exp2 (tol / 1200)) a [c]).bpm = c.bpm := by
        rw [octaveDown]
        split_ifs
        · rfl
        · exact h
      rw [octaveUp_same e]
  · intro hf k1
    have hadd : addReasonable [a] [a] = [a] := by
      have := addReasonable_append (pre := [a]) (cs := []) (kept := [a]) (by simp) (by simpa using hf)
      simpa [addReasonable] using this
    have hmin : F32.min a.conf 1 = a.conf := min_one k1
    have hest : boost [a] [] (estOf false ⟨a.bpm, a.conf, 1, a.conf⟩) = ⟨a.bpm, a.conf, 1⟩ := by
      simp [boost, estOf, hmin]
    have hs : safety [(⟨a.bpm, a.conf, 1⟩ : Est)] = [⟨a.bpm, a.conf, 1⟩] := by
      cases hr : reasonable a.bpm <;> simp [safety, hr]
    simp only [merge, List.map_cons, List.map_nil, List.take_succ_cons, List.take_nil, octaveDown, octaveUp, hadd,
      List.append_nil, List.foldl_cons, List.foldl_nil, addGroup, disagreement, List.head?_cons, List.head?_nil, hest, hs]
    simp [rsort, insertBy]

/-- a usable `exp2` for the octave tolerance: between 1.0275 and 1.25 (exact for 50 cents: 1.0293) -/
def OctaveTol (M : Libm) (tol : F32) : Prop := 1.0275 ≤ M.exp2 (tol / 1200) ∧ M.exp2 (tol / 1200) ≤ 1.25

/-- non-vacuity of `C142_octave_partial`: 243 BPM and 61 BPM against a comb tempo of 120 -/
example : OctaveTol Libm.demo 50 ∧ NearTimes 2 (243 : F32) 120 ∧ NearTimes 2 (120 : F32) 61 ∧
    (merge Libm.demo [⟨243, 0.5⟩] [⟨120, 0.5⟩] 50).map (fun e => (e.bpm, e.agreement)) = [(120, 2)] ∧
    (merge Libm.demo [⟨61, 0.5⟩] [⟨120, 0.5⟩] 50).map (fun e => (e.bpm, e.agreement)) = [(120, 2)] := by
  unfold OctaveTol NearTimes
  decide +kernel

/-- the merge sees `exp2` only through the corrected candidates -/
theorem merge_congr {M N : Libm} {ac cb : List Cand} {tol : F32}
    (h : ∀ a ∈ ac, octaveUp (M.exp2 (tol / 1200)) (octaveDown (M.exp2 (tol / 1200)) a (cb.take 3)) (cb.take 3) =
      octaveUp (N.exp2 (tol / 1200)) (octaveDown (N.exp2 (tol / 1200)) a (cb.take 3)) (cb.take 3)) :
    merge M ac cb tol = merge N ac cb tol := by
  have e := List.map_congr_left h
  simp only [merge, List.map_map, Function.comp_def]
  rw [e]

/-- a tolerance between 1.0275 and 1.25 accepts an exact octave and refuses a unison -/
theorem tol_decides {t : F32} (h1 : 1.0275 ≤ t) (h2 : t ≤ 1.25) :
    (0 : F32) < t - 1 ∧ ¬ (0.5 : F32) < t - 1 ∧ ¬ (0.75 : F32) < t - 1 := by
  have l1 : fin (1 + 7 / 256) (by decide +kernel) ≤ (1.0275 : F32) := by decide +kernel
  have l2 : (1.25 : F32) = fin (5 / 4) (by decide +kernel) := by decide +kernel
  rw [l2] at h2
  obtain ⟨s, hs, rfl, a, b⟩ := between_cases (le_trans l1 h1) h2
  have e1 : (1 : F32) = fin 1 (by decide +kernel) := by decide +kernel
  rw [e1, sub_fin]
  obtain ⟨g, e, l, u⟩ := rnd_between (x := s - 1) (a := 7 / 256) (b := 1 / 4) (by decide +kernel) (by decide +kernel)
    (by linarith) (by linarith)
  have e5 : (0.5 : F32) = fin (1 / 2) (by decide +kernel) := by decide +kernel
  have e7 : (0.75 : F32) = fin (3 / 4) (by decide +kernel) := by decide +kernel
  rw [e, e5, e7, zero_def, fin_lt_fin, fin_lt_fin, fin_lt_fin]
  exact ⟨by linarith, by linarith, by linarith⟩

/-- **C142 violated (agreement)**: both methods put 60 BPM first (confidences 0.8 and 0.9) and the comb filter lists 120 BPM as a
weaker alternative (0.5).  The octave correction moves the autocorrelation's 60 to 120 although the comb filter agrees with it, so
120 BPM ranks first with two supporting methods, and 60 BPM, the common first choice, is left with one. -/
theorem C142_violated (M : Libm) (hM : OctaveTol M 50) :
    (merge M [⟨60, 0.8⟩] [⟨60, 0.9⟩, ⟨120, 0.5⟩] 50).map (fun e => (e.bpm, e.agreement)) = [(120, 2), (60, 1)] := by
  obtain ⟨p, q, r⟩ := tol_decides hM.1 hM.2
  have key : ∀ t : F32, (0 : F32) < t - 1 → ¬ (0.5 : F32) < t - 1 → ¬ (0.75 : F32) < t - 1 →
      octaveUp t (octaveDown t ⟨60, 0.8⟩ [⟨60, 0.9⟩, ⟨120, 0.5⟩]) [⟨60, 0.9⟩, ⟨120, 0.5⟩] = ⟨120, 0.8⟩ := by
    intro t p q r
    have a1 : ((60 : F32) / 60 / 2 - 1).abs = 0.5 := by decide +kernel
    have a2 : ((60 : F32) / 120 / 2 - 1).abs = 0.75 := by decide +kernel
    have a3 : ((120 : F32) / 60 / 2 - 1).abs = 0 := by decide +kernel
    have hr : reasonable 120 = true := by decide +kernel
    simp [octaveDown, octaveUp, a1, a2, a3, p, q, r, hr]
  have hd : OctaveTol Libm.demo 50 := by unfold OctaveTol; decide +kernel
  obtain ⟨p', q', r'⟩ := tol_decides hd.1 hd.2
  rw [merge_congr (N := Libm.demo) (by
    intro a ha
    rw [List.mem_singleton] at ha
    subst ha
    simp only [List.take_succ_cons, List.take_nil]
    rw [key _ p q r, key _ p' q' r'])]
  decide +kernel

/-- **C142 violated (confidence)**: against "single method: confidence = original", a lone comb candidate at 120 BPM with confidence
0.5 is reported with more than 0.69; against "both methods: min(1.0, (conf1 + conf2) * 1.2)", two candidates at 120 BPM with
confidence 0.5 are reported with more than 1.25, and two at 200 BPM with confidence 0.3 (documented: 0.72) with less than 0.55. -/
theorem C142_violated_confidence (M : Libm) (hM : OctaveTol M 50) :
    (∃ e, merge M [] [⟨120, 0.5⟩] 50 = [e] ∧ 0.69 < e.conf) ∧
    (∃ e, merge M [⟨120, 0.5⟩] [⟨120, 0.5⟩] 50 = [e] ∧ 1.25 < e.conf) ∧
    (∃ e, merge M [⟨200, 0.3⟩] [⟨200, 0.3⟩] 50 = [e] ∧ e.conf < 0.55) := by
  have hd : OctaveTol Libm.demo 50 := by unfold OctaveTol; decide +kernel
  have key : ∀ (t : F32) (b k : F32), (b / b / 2 - 1).abs = 0.5 → ¬ (0.5 : F32) < t - 1 →
      octaveUp t (octaveDown t ⟨b, k⟩ [⟨b, k⟩]) [⟨b, k⟩] = ⟨b, k⟩ := by
    intro t b k a1 q
    simp [octaveDown, octaveUp, a1, q]
  have tr : ∀ b k : F32, (b / b / 2 - 1).abs = 0.5 → merge M [⟨b, k⟩] [⟨b, k⟩] 50 = merge Libm.demo [⟨b, k⟩] [⟨b, k⟩] 50 := by
    intro b k a1
    refine merge_congr ?_
    intro a ha
    rw [List.mem_singleton] at ha
    subst ha
    simp only [List.take_succ_cons, List.take_nil]
    rw [key _ _ _ a1 (tol_decides hM.1 hM.2).2.1, key _ _ _ a1 (tol_decides hd.1 hd.2).2.1]
  rw [merge_congr (M := M) (N := Libm.demo) (ac := []) (by simp), tr 120 0.5 (by decide +kernel), tr 200 0.3 (by decide +kernel)]
  refine ⟨⟨(merge Libm.demo [] [⟨120, 0.5⟩] 50).headD ⟨0, 0, 0⟩, by decide +kernel⟩,
    ⟨(merge Libm.demo [⟨120, 0.5⟩] [⟨120, 0.5⟩] 50).headD ⟨0, 0, 0⟩, by decide +kernel⟩,
    ⟨(merge Libm.demo [⟨200, 0.3⟩] [⟨200, 0.3⟩] 50).headD ⟨0, 0, 0⟩, by decide +kernel⟩⟩

end Verif.Props
