/-
Property theorems C141: what counts as a variation of the tempo (src/features/beat_tracking/tempo_variation.rs).
-/
import Verif.Props.ClickGrid

namespace Verif.Props
open Verif Verif.Beat F32

/-- Specification: a gap (in seconds) within 5 % of `T`. -/
def LooseGap (T : ℚ) (x : F32) : Prop := ∃ v hv, x = fin v hv ∧ |v - T| ≤ T / 20

theorem loose_gaps {T : ℚ} : ∀ {l : List F32}, l.IsChain (fun a b => LooseGap T (b - a)) → ∀ x ∈ posIntervals l, LooseGap T x
  | [], _ => by simp [posIntervals]
  | [_], _ => by simp [posIntervals]
  | a :: b :: l, h => by
    rw [List.isChain_cons_cons] at h
    intro x hx
    rw [posIntervals] at hx
    split_ifs at hx
    · rcases List.mem_cons.1 hx with rfl | hx
      · exact h.1
      · exact loose_gaps h.2 x hx
    · exact loose_gaps h.2 x hx

theorem loose_mean {T : ℚ} (t1 : 1 / 5 ≤ T) (t2 : T ≤ 2) {iv : List F32} (hne : iv ≠ []) (hn : iv.length ≤ 4096)
    (h : ∀ x ∈ iv, LooseGap T x) :
    ∃ M hM, F32.sum iv / F32.ofNat iv.length = fin M hM ∧ |M - T| ≤ T * (26 / 500) := by
  have hv : ∀ x ∈ iv, x.isFinite = true ∧ 0 ≤ x.val ∧ T * (19 / 20) ≤ x.val ∧ x.val ≤ T * (21 / 20) := by
    intro x hx
    obtain ⟨v, hv, rfl, b⟩ := h x hx
    have := abs_le.1 b
    exact ⟨rfl, by show 0 ≤ v; linarith, by show _ ≤ v; linarith, by show v ≤ _; linarith⟩
  have hn1 : 1 ≤ iv.length := List.length_pos_iff.2 hne
  have hnq : (1 : ℚ) ≤ iv.length := by exact_mod_cast hn1
  have hnq2 : (iv.length : ℚ) ≤ 4096 := by exact_mod_cast hn
  have hup : (iv.map F32.val).sum ≤ iv.length * (T * (21 / 20)) := sum_map_le iv _ _ (fun x hx => (hv x hx).2.2.2)
  have hlo : iv.length * (T * (19 / 20)) ≤ (iv.map F32.val).sum := sum_map_ge iv _ _ (fun x hx => (hv x hx).2.2.1)
  obtain ⟨S, hS, eS, S0, bS⟩ := sum_rel iv (fun x hx => ⟨(hv x hx).1, (hv x hx).2.1⟩)
    (_root_.le_trans hup (by norm_num; nlinarith)) (by omega)
  have bS' := abs_le.1 bS
  rw [eS, ofNat_exact (by omega), div_fin (by linarith)]
  generalize (iv.map F32.val).sum = Q at *
  generalize (iv.length : ℚ) = n at *
  have hQ0 : 0 ≤ Q := by nlinarith
  have hA : Q * (n / 2 ^ 23) ≤ Q * (1 / 2048) :=
    _root_.mul_le_mul_of_nonneg_left (by norm_num; linarith) hQ0
  have hnT : n * (1 / 5) ≤ n * T := _root_.mul_le_mul_of_nonneg_left t1 (by linarith)
  have hB : n / 2 ^ 149 ≤ n * T * (1 / 10 ^ 6) := by norm_num; linarith
  have d1 : S / n ≤ T * (1051 / 1000) := by
    rw [div_le_iff₀ (by linarith)]; norm_num at hA hB ⊢; nlinarith [bS'.2]
  have d2 : T * (949 / 1000) ≤ S / n := by
    rw [le_div_iff₀ (by linarith)]; norm_num at hA hB ⊢; nlinarith [bS'.1]
  have hab : |S / n| ≤ 3 := abs_le.2 ⟨by linarith, by linarith⟩
  obtain ⟨hM, eM⟩ := fin_of_le (q := S / n) (_root_.le_trans hab (by norm_num))
  refine ⟨_, hM, eM, ?_⟩
  have b4 := abs_le.1 (err_pow (S / n))
  rw [abs_le]
  norm_num at b4 ⊢
  constructor <;> linarith [b4.1, b4.2]

theorem loose_sd {T M : ℚ} {hM hM8} (t1 : 1 / 5 ≤ T) (t2 : T ≤ 2) {iv : List F32} (hne : iv ≠ []) (hn : iv.length ≤ 4096)
    (h : ∀ x ∈ iv, LooseGap T x) (hMT : |M - T| ≤ T * (26 / 500)) :
    0 ≤ F32.sqrt (F32.sum (iv.map (fun x => (x - fin M hM) * (x - fin M hM))) / F32.ofNat iv.length) ∧
    F32.sqrt (F32.sum (iv.map (fun x => (x - fin M hM) * (x - fin M hM))) / F32.ofNat iv.length) ≤ fin (M / 8) hM8 := by
  have b2 := abs_le.1 hMT
  have hT0 : 0 ≤ T := by linarith
  have hTT : 1 / 25 ≤ T * T := by nlinarith
  have hTT2 : T * T ≤ 4 := by nlinarith
  have hsq : ∀ x ∈ iv, ∃ s hs, (x - fin M hM) * (x - fin M hM) = fin s hs ∧ 0 ≤ s ∧ s ≤ T * T * (108 / 10000) := by
    intro x hx
    obtain ⟨v, hv, rfl, b⟩ := h x hx
    have b1 := abs_le.1 b
    have hd : |v - M| ≤ T * (102 / 1000) := abs_le.2 ⟨by linarith [b1.1, b2.2], by linarith [b1.2, b2.1]⟩
    rw [sub_fin]
    obtain ⟨hq, e⟩ := fin_of_le (q := v - M) (_root_.le_trans hd (by norm_num; linarith))
    rw [e]
    have b3 := abs_le.1 (err_pow (v - M))
    have hd' := abs_le.1 hd
    have hD : |rndQ (v - M)| ≤ T * (103 / 1000) := by
      rw [abs_le]; norm_num at b3 ⊢; constructor <;> linarith [b3.1, b3.2, hd'.1, hd'.2]
    generalize rndQ (v - M) = D at *
    have hDD : D * D ≤ T * T * (10609 / 1000000) := by
      rw [← abs_mul_abs_self D]; have := _root_.abs_nonneg D; nlinarith
    have hDD0 : 0 ≤ D * D := mul_self_nonneg D
    rw [mul_fin]
    obtain ⟨hs, es⟩ := fin_of_le (q := D * D) (by rw [_root_.abs_of_nonneg hDD0]; norm_num; linarith)
    refine ⟨_, hs, es, rndQ_nonneg hDD0, ?_⟩
    have b4 := err_pow (D * D)
    rw [_root_.abs_of_nonneg hDD0] at b4
    have := (abs_le.1 b4).2
    norm_num at this ⊢; linarith
  have hn1 : 1 ≤ iv.length := List.length_pos_iff.2 hne
  have hnq : (1 : ℚ) ≤ iv.length := by exact_mod_cast hn1
  have hnq2 : (iv.length : ℚ) ≤ 4096 := by exact_mod_cast hn
  have hv : ∀ x ∈ iv.map (fun x => (x - fin M hM) * (x - fin M hM)), x.isFinite = true ∧ 0 ≤ x.val ∧
      x.val ≤ T * T * (108 / 10000) := by
    intro y hy
    obtain ⟨x, hx, rfl⟩ := List.mem_map.1 hy
    obtain ⟨s, hs, e, s0, s1⟩ := hsq x hx
    rw [e]; exact ⟨rfl, s0, s1⟩
  have hup : ((iv.map (fun x => (x - fin M hM) * (x - fin M hM))).map F32.val).sum ≤ iv.length * (T * T * (108 / 10000)) := by
    have := sum_map_le (iv.map (fun x => (x - fin M hM) * (x - fin M hM))) F32.val _ (fun x hx => (hv x hx).2.2)
    rwa [List.length_map] at this
  have h0 : 0 ≤ ((iv.map (fun x => (x - fin M hM) * (x - fin M hM))).map F32.val).sum := by
    apply List.sum_nonneg
    intro y hy
    obtain ⟨x, hx, rfl⟩ := List.mem_map.1 hy
    exact (hv x hx).2.1
  obtain ⟨S, hS, eS, S0, bS⟩ := sum_rel _ (fun x hx => ⟨(hv x hx).1, (hv x hx).2.1⟩)
    (_root_.le_trans hup (by norm_num; nlinarith)) (by rw [List.length_map]; omega)
  rw [List.length_map] at bS
  rw [eS, ofNat_exact (by omega), div_fin (by linarith)]
  generalize ((iv.map (fun x => (x - fin M hM) * (x - fin M hM))).map F32.val).sum = Q at *
  have bS' := (abs_le.1 bS).2
  generalize (iv.length : ℚ) = n at *
  have hA : Q * (n / 2 ^ 23) ≤ Q * (1 / 2048) :=
    _root_.mul_le_mul_of_nonneg_left (by norm_num; linarith) h0
  have hnT : n * (1 / 25) ≤ n * (T * T) := _root_.mul_le_mul_of_nonneg_left hTT (by linarith)
  have hB : n / 2 ^ 149 ≤ n * (T * T) * (1 / 10 ^ 6) := by norm_num; linarith
  have d1 : S / n ≤ T * T * (109 / 10000) := by
    rw [div_le_iff₀ (by linarith)]; norm_num at hA hB ⊢; nlinarith
  have d0 : 0 ≤ S / n := div_nonneg S0 (by linarith)
  obtain ⟨hV, eV⟩ := fin_of_le (q := S / n) (by rw [_root_.abs_of_nonneg d0]; norm_num; linarith)
  rw [eV]
  have b4 := err_pow (S / n)
  rw [_root_.abs_of_nonneg d0] at b4
  have b4' := (abs_le.1 b4).2
  have V0 := rndQ_nonneg d0
  constructor
  · exact F32.sqrt_nonneg (by rw [zero_def, fin_le_fin]; exact V0)
  · apply sqrt_le_fin V0 (by linarith)
    have hM0 : T * (948 / 1000) ≤ M := by linarith
    have hMM : T * T * (89 / 100) ≤ M * M := by nlinarith
    norm_num at b4' ⊢
    nlinarith

theorem onGrid_eighth {M : ℚ} (h : OnGrid M) (h0 : 1 / 10 ≤ M) : OnGrid (M / 8) := by
  rw [onGrid_iff] at *
  obtain ⟨m, e, hm, he, rfl⟩ := h
  have he' : -146 ≤ e := by
    by_contra hc
    have hm' : (m : ℚ) ≤ 2 ^ 24 := by exact_mod_cast (abs_le.1 hm).2
    have h1 := pow2_le (show e ≤ -146 by omega)
    have h2 : pow2 (-146) ≤ 1 / 2 ^ 40 := by rw [pow2_eq]; norm_num
    have h3 := pow2_pos e
    nlinarith
  refine ⟨m, e - 3, hm, by omega, ?_⟩
  rw [show e - 3 = e + -3 by omega, pow2_add, show pow2 (-3) = 1 / 8 by rw [pow2_eq]; norm_num]
  ring

/-- **C141 (partial): loose timing is not tempo variation.** When all gaps between the beats are within 5 % of one value, no
segment is marked variable and the segments report the tempo (to 4 BPM in 60).  Missing: that a changing tempo is marked
(`C141_violated`). -/
theorem C141_loose_partial (fuel : ℕ) (beats : List F32) (nominal : F32) (segs : List Seg) (T : ℚ) (t1 : 1 / 5 ≤ T) (t2 : T ≤ 2)
    (hsort : beats.Pairwise (· ≤ ·)) (hfin : ∀ b ∈ beats, b.isFinite = true) (hnom : 0 < nominal) (hl : beats.length ≤ 4096)
    (hg : beats.IsChain (fun a b => LooseGap T (b - a))) (h : tempoSegments fuel beats nominal = .ok segs) :
    hasVariation segs = false ∧ ∀ s ∈ segs, s.bpm = nominal ∨ ∃ v hv, s.bpm = fin v hv ∧ |v * T - 60| ≤ 4 := by
  obtain ⟨_, _, _, hm, hv⟩ := C35_segments fuel beats nominal segs hsort hfin hnom h
  have hkey : ∀ s, Measured beats nominal s → s.isVar = false ∧
      (s.bpm = nominal ∨ ∃ v hv, s.bpm = fin v hv ∧ |v * T - 60| ≤ 4) := by
    intro s hs
    have hin := beatsIn_infix hsort s.start s.stop
    have hlg : ∀ x ∈ gaps (beatsIn beats s.start s.stop), LooseGap T x := by
      rw [← posIntervals_eq]; exact loose_gaps (hg.infix hin)
    have hlen : (gaps (beatsIn beats s.start s.stop)).length ≤ 4096 := by
      rw [← posIntervals_eq]
      have := gaps_length_le (beatsIn beats s.start s.stop)
      have := hin.length_le
      omega
    obtain ⟨_, hgap, hflag, _, hbpm⟩ := hs
    generalize gaps (beatsIn beats s.start s.stop) = iv at *
    obtain ⟨M, hM, eM, bM⟩ := loose_mean t1 t2 hgap hlen hlg
    have bM' := abs_le.1 bM
    have hM0 : T * (948 / 1000) ≤ M := by linarith
    have hM1 : M ≤ T * (1052 / 1000) := by linarith
    have hM8 : OnGrid (M / 8) ∧ |M / 8| < pow2 128 := by
      refine ⟨onGrid_eighth hM.1 (by linarith), ?_⟩
      rw [_root_.abs_of_nonneg (by linarith)]
      have := (abs_lt.1 hM.2).2
      linarith
    obtain ⟨s0, s1⟩ := loose_sd (hM := hM) (hM8 := hM8) t1 t2 hgap hlen hlg bM
    constructor
    · rw [Bool.eq_false_iff]
      intro hc
      have hlt := hflag.1 hc
      unfold gapVariation at hlt
      dsimp only at hlt
      rw [eM] at hlt
      rw [zero_def] at s0
      obtain ⟨q, hq, eq, q0, q1⟩ := between_cases s0 s1
      rw [eq] at hlt
      split_ifs at hlt
      · rw [div_fin (by linarith)] at hlt
        have e8 : ∃ h, (0.125 : F32) = fin (1 / 8) h := ⟨by decide +kernel, by decide +kernel⟩
        obtain ⟨h8, e8⟩ := e8
        have : rnd (q / M) ≤ fin (1 / 8) h8 := rnd_le_fin (by rw [div_le_iff₀ (by linarith)]; linarith)
        have h9 := F32.lt_of_lt_of_le hlt this
        rw [← e8] at h9
        exact absurd h9 (by decide +kernel)
      · exact absurd hlt (by decide +kernel)
    · rcases hbpm with hb | hb
      · exact Or.inl hb
      · right
        rw [hb, eM]
        have e60 : (60 : F32) = fin 60 (by decide +kernel) := by decide +kernel
        rw [e60, div_fin (by linarith)]
        have hMp : 0 < M := by linarith
        have hu : 60 / M * T ≤ 633 / 10 := by
          rw [div_mul_eq_mul_div, div_le_iff₀ hMp]; linarith
        have hlw : 57 ≤ 60 / M * T := by
          rw [div_mul_eq_mul_div, le_div_iff₀ hMp]; linarith
        have h0 : 0 ≤ 60 / M := by positivity
        have hq : 60 / M ≤ 400 := by rw [div_le_iff₀ hMp]; linarith
        obtain ⟨hF, eF⟩ := fin_of_le (q := 60 / M) (by rw [_root_.abs_of_nonneg h0]; norm_num; linarith)
        refine ⟨_, hF, eF, ?_⟩
        have b4 := err_pow (60 / M)
        rw [_root_.abs_of_nonneg h0] at b4
        have b4' := abs_le.1 b4
        have : |rndQ (60 / M) - 60 / M| ≤ 1 / 1000 := by
          refine _root_.le_trans b4 ?_
          norm_num; linarith
        have b5 := abs_le.1 this
        rw [abs_le]
        constructor <;> nlinarith [b5.1, b5.2]
  rcases hm with ⟨c, rfl⟩ | hm
  · exact ⟨rfl, by simp⟩
  · refine ⟨?_, fun s hs => (hkey s (hm s hs)).2⟩
    rw [Bool.eq_false_iff]
    intro hc
    obtain ⟨s, hs, hsv⟩ := hv.1 hc
    rw [(hkey s (hm s hs)).1] at hsv
    cases hsv

/-- Twenty beats with gaps of alternately 0.5 s and 0.53125 s meet the hypotheses. -/
def loosely : List F32 := (List.range 20).map (fun k => rnd (k / 2 + (k / 2 : ℕ) / 32))

example : loosely.Pairwise (· ≤ ·) ∧ (∀ b ∈ loosely, b.isFinite = true) ∧
    (List.zipWith (fun a b => (b - a).val) loosely loosely.tail).all (fun v => decide (|v - 33 / 64| ≤ 33 / 64 / 20)) = true ∧
    (match tempoSegments 100 loosely 120 with
      | .ok segs => decide (2 ≤ segs.length) && !hasVariation segs
      | .error _ => false) = true := by
  decide +kernel

/-- Beats that accelerate steadily from 80 to 160 BPM: the gaps shrink from 0.75 s to 0.375 s by 1/128 s each. -/
def accelerating : List F32 := (List.range 50).map (fun k => rnd (3 / 4 * k - (k * (k - 1) / 2) / 128))

/-- **C141 is violated**: a piece that doubles its tempo from beginning to end is not marked variable anywhere, though its
segments report tempos from below 85 to above 145 BPM. -/
theorem C141_violated : accelerating.Pairwise (· ≤ ·) ∧
    accelerating.getD 1 0 - accelerating.getD 0 0 = 0.75 ∧ accelerating.getD 49 0 - accelerating.getD 48 0 = 0.375 ∧
    (match tempoSegments 100 accelerating 120 with
      | .ok segs => !hasVariation segs && segs.any (fun s => decide (s.bpm < 85)) && segs.any (fun s => decide (145 < s.bpm))
      | .error _ => false) = true := by
  decide +kernel

end Verif.Props
