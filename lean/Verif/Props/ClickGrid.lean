/-
A metronome through generate_beat_grid (C114): the grid is the clicks, and it is reported stable.
-/
import Verif.Props.Clicks
import Verif.Props.Stability

namespace Verif.Props
open Verif Verif.F32 Verif.Beat

/-! ### gaps that are nearly equal -/

/-- a gap within 2.5 ms of `T` -/
def NearGap (T : ℚ) (x : F32) : Prop := ∃ v hv, x = fin v hv ∧ |v - T| ≤ 1 / 400

theorem sum_map_ge {α} (L : List α) (g : α → ℚ) (B : ℚ) (h : ∀ a ∈ L, B ≤ g a) : L.length * B ≤ (L.map g).sum := by
  induction L with
  | nil => simp
  | cons a L ih =>
    have := ih (fun b hb => h b (by simp [hb]))
    have ha := h a (by simp)
    simp only [List.map_cons, List.sum_cons, List.length_cons]
    push_cast; linarith

theorem steady_mean {T : ℚ} (t1 : 1 / 5 ≤ T) (t2 : T ≤ 2) {iv : List F32} (hne : iv ≠ []) (hn : iv.length ≤ 20480)
    (hnT : iv.length * T ≤ 4097) (h : ∀ x ∈ iv, NearGap T x) :
    ∃ M hM, mean iv = fin M hM ∧ |M - T| ≤ 1 / 250 := by
  have hv : ∀ x ∈ iv, x.isFinite = true ∧ 0 ≤ x.val ∧ T - 1 / 400 ≤ x.val ∧ x.val ≤ T + 1 / 400 := by
    intro x hx
    obtain ⟨v, hv, rfl, b⟩ := h x hx
    have := abs_le.1 b
    exact ⟨rfl, by show 0 ≤ v; linarith, by show _ ≤ v; linarith, by show v ≤ _; linarith⟩
  have hn1 : 1 ≤ iv.length := List.length_pos_iff.2 hne
  have hnq : (1 : ℚ) ≤ iv.length := by exact_mod_cast hn1
  have hnq2 : (iv.length : ℚ) ≤ 20480 := by exact_mod_cast hn
  have hup : (iv.map F32.val).sum ≤ iv.length * (T + 1 / 400) := sum_map_le iv _ _ (fun x hx => (hv x hx).2.2.2)
  have hlo : iv.length * (T - 1 / 400) ≤ (iv.map F32.val).sum := by
    exact sum_map_ge iv _ _ (fun x hx => (hv x hx).2.2.1)
  obtain ⟨S, hS, eS, S0, bS⟩ := sum_rel iv (fun x hx => ⟨(hv x hx).1, (hv x hx).2.1⟩)
    (_root_.le_trans hup (by norm_num; nlinarith)) (by omega)
  have bS' := abs_le.1 bS
  unfold mean
  rw [eS, ofNat_exact (by omega), div_fin (by linarith)]
  generalize (iv.map F32.val).sum = Q at *
  generalize (iv.length : ℚ) = n at *
  have hQ : Q ≤ 4200 := by nlinarith
  have hQ0 : 0 ≤ Q := by nlinarith
  have hA : Q * (n / 2 ^ 23) ≤ n * (1 / 1900) := by
    have := _root_.mul_le_mul_of_nonneg_right hQ (show (0 : ℚ) ≤ n / 2 ^ 23 by positivity)
    norm_num at this ⊢; linarith
  have hB : n / 2 ^ 149 ≤ n * (1 / 10 ^ 9) := by norm_num; linarith
  have d1 : S / n ≤ T + 1 / 300 := by
    rw [div_le_iff₀ (by linarith)]; linarith [bS'.2]
  have d2 : T - 1 / 300 ≤ S / n := by
    rw [le_div_iff₀ (by linarith)]; linarith [bS'.1]
  have hab : |S / n| ≤ 3 := abs_le.2 ⟨by linarith, by linarith⟩
  obtain ⟨hM, eM⟩ := fin_of_le (q := S / n) (_root_.le_trans hab (by norm_num))
  refine ⟨_, hM, eM, ?_⟩
  have b := abs_le.1 (err_pow (S / n))
  rw [abs_le]
  norm_num at b ⊢
  constructor <;> linarith [b.1, b.2]

theorem steady_sd {T M : ℚ} {hM} {iv : List F32} (hne : iv ≠ []) (hn : iv.length ≤ 20480)
    (h : ∀ x ∈ iv, NearGap T x) (hMT : |M - T| ≤ 1 / 250) :
    0 ≤ F32.sqrt (variance iv (fin M hM)) ∧ F32.sqrt (variance iv (fin M hM)) ≤ 0.0078125 := by
  have hsq : ∀ x ∈ iv, ∃ s hs, (x - fin M hM) * (x - fin M hM) = fin s hs ∧ 0 ≤ s ∧ s ≤ 1 / 22000 := by
    intro x hx
    obtain ⟨v, hv, rfl, b⟩ := h x hx
    have b1 := abs_le.1 b
    have b2 := abs_le.1 hMT
    have hd : |v - M| ≤ 13 / 2000 := abs_le.2 ⟨by linarith [b1.1, b2.2], by linarith [b1.2, b2.1]⟩
    rw [sub_fin]
    obtain ⟨hq, e⟩ := fin_of_le (q := v - M) (_root_.le_trans hd (by norm_num))
    rw [e]
    have b3 := abs_le.1 (err_pow (v - M))
    have hd' := abs_le.1 hd
    have hD : |rndQ (v - M)| ≤ 1 / 150 := by
      rw [abs_le]; norm_num at b3 ⊢; constructor <;> linarith [b3.1, b3.2, hd'.1, hd'.2]
    generalize rndQ (v - M) = D at *
    have hDD : D * D ≤ 1 / 22500 := by
      rw [← abs_mul_abs_self D]; have := _root_.abs_nonneg D; nlinarith
    have hDD0 : 0 ≤ D * D := mul_self_nonneg D
    rw [mul_fin]
    obtain ⟨hs, es⟩ := fin_of_le (q := D * D) (by rw [_root_.abs_of_nonneg hDD0]; norm_num; linarith)
    refine ⟨_, hs, es, rndQ_nonneg hDD0, ?_⟩
    have b4 := err_pow (D * D)
    rw [_root_.abs_of_nonneg hDD0] at b4
    have := (abs_le.1 b4).2
    norm_num at this ⊢; linarith
  have hn1 : 1 ≤ iv.length := List.length_pos_iff.2 hne
  have hnq : (1 : ℚ) ≤ iv.length := by exact_mod_cast hn1
  have hnq2 : (iv.length : ℚ) ≤ 20480 := by exact_mod_cast hn
  have hv : ∀ x ∈ iv.map (fun x => (x - fin M hM) * (x - fin M hM)), x.isFinite = true ∧ 0 ≤ x.val ∧ x.val ≤ 1 / 22000 := by
    intro y hy
    obtain ⟨x, hx, rfl⟩ := List.mem_map.1 hy
    obtain ⟨s, hs, e, s0, s1⟩ := hsq x hx
    rw [e]; exact ⟨rfl, s0, s1⟩
  have hup : ((iv.map (fun x => (x - fin M hM) * (x - fin M hM))).map F32.val).sum ≤ iv.length * (1 / 22000) := by
    have := sum_map_le (iv.map (fun x => (x - fin M hM) * (x - fin M hM))) F32.val _ (fun x hx => (hv x hx).2.2)
    rwa [List.length_map] at this
  have h0 : 0 ≤ ((iv.map (fun x => (x - fin M hM) * (x - fin M hM))).map F32.val).sum := by
    apply List.sum_nonneg
    intro y hy
    obtain ⟨x, hx, rfl⟩ := List.mem_map.1 hy
    exact (hv x hx).2.1
  obtain ⟨S, hS, eS, S0, bS⟩ := sum_rel _ (fun x hx => ⟨(hv x hx).1, (hv x hx).2.1⟩)
    (_root_.le_trans hup (by norm_num; linarith)) (by rw [List.length_map]; omega)
  rw [List.length_map] at bS
  rw [variance_eq, eS, ofNat_exact (by omega), div_fin (by linarith)]
  generalize ((iv.map (fun x => (x - fin M hM) * (x - fin M hM))).map F32.val).sum = Q at *
  have bS' := (abs_le.1 bS).2
  generalize (iv.length : ℚ) = n at *
  have hA : Q * (n / 2 ^ 23) ≤ Q * (1 / 400) :=
    _root_.mul_le_mul_of_nonneg_left (by norm_num; linarith) h0
  have hB : n / 2 ^ 149 ≤ n * (1 / 10 ^ 9) := by norm_num; linarith
  have d1 : S / n ≤ 1 / 21000 := by
    rw [div_le_iff₀ (by linarith)]; linarith
  have d0 : 0 ≤ S / n := div_nonneg S0 (by linarith)
  obtain ⟨hV, eV⟩ := fin_of_le (q := S / n) (by rw [_root_.abs_of_nonneg d0]; norm_num; linarith)
  rw [eV]
  have b4 := err_pow (S / n)
  rw [_root_.abs_of_nonneg d0] at b4
  have b4' := (abs_le.1 b4).2
  have V0 := rndQ_nonneg d0
  constructor
  · exact F32.sqrt_nonneg (by rw [zero_def, fin_le_fin]; exact V0)
  · obtain ⟨hx, ex⟩ : ∃ h, (0.0078125 : F32) = fin (1 / 128) h := ⟨by decide +kernel, by decide +kernel⟩
    rw [ex]
    apply sqrt_le_fin V0 (by norm_num)
    norm_num at b4' ⊢
    linarith

/-- the variation of nearly equal gaps -/
theorem steady_cv {T : ℚ} (t1 : 1 / 5 ≤ T) (t2 : T ≤ 2) {iv : List F32} (hne : iv ≠ []) (hn : iv.length ≤ 20480)
    (hnT : iv.length * T ≤ 4097) (h : ∀ x ∈ iv, NearGap T x) :
    EPS < mean iv ∧ 0 ≤ F32.sqrt (variance iv (mean iv)) / mean iv ∧ F32.sqrt (variance iv (mean iv)) / mean iv ≤ 0.0625 := by
  obtain ⟨M, hM, eM, bM⟩ := steady_mean t1 t2 hne hn hnT h
  have bM' := abs_le.1 bM
  obtain ⟨s0, s1⟩ := steady_sd (hM := hM) hne hn h bM
  rw [eM]
  obtain ⟨hx, ex⟩ : ∃ h, (0.0078125 : F32) = fin (1 / 128) h := ⟨by decide +kernel, by decide +kernel⟩
  obtain ⟨hy, ey⟩ : ∃ h, (0.0625 : F32) = fin (1 / 16) h := ⟨by decide +kernel, by decide +kernel⟩
  rw [ex] at s1
  rw [zero_def] at s0 ⊢
  obtain ⟨s, hs, es, q0, q1⟩ := between_cases s0 s1
  rw [es, ey, div_fin (by linarith)]
  refine ⟨?_, fin_le_rnd (div_nonneg q0 (by linarith)), rnd_le_fin ?_⟩
  · obtain ⟨he, ee⟩ : ∃ h, EPS = fin EPS.val h := ⟨by decide +kernel, by decide +kernel⟩
    have hE : EPS.val < 1 / 100 := by decide +kernel
    rw [ee, fin_lt_fin]; linarith
  · rw [div_le_iff₀ (by linarith)]; linarith

/-! ### beats inside a segment are consecutive -/

theorem filter_ge_suffix {a : F32} : ∀ {l : List F32}, l.Pairwise (· ≤ ·) → (l.filter (fun x => decide (a ≤ x))) <:+ l
  | [], _ => List.suffix_rfl
  | x :: l, h => by
    obtain ⟨h1, h2⟩ := List.pairwise_cons.1 h
    by_cases hx : a ≤ x
    · have : (x :: l).filter (fun x => decide (a ≤ x)) = x :: l := by
        rw [List.filter_eq_self]
        intro y hy
        rcases List.mem_cons.1 hy with rfl | hy
        · simpa using hx
        · simpa using F32.le_trans hx (h1 y hy)
      rw [this]
    · rw [List.filter_cons_of_neg (by simpa using hx)]
      exact (filter_ge_suffix h2).trans (List.suffix_cons x l)

theorem filter_le_prefix {b : F32} : ∀ {l : List F32}, l.Pairwise (· ≤ ·) → (l.filter (fun x => decide (x ≤ b))) <+: l
  | [], _ => List.prefix_rfl
  | x :: l, h => by
    obtain ⟨h1, h2⟩ := List.pairwise_cons.1 h
    by_cases hx : x ≤ b
    · rw [List.filter_cons_of_pos (by simpa using hx)]
      exact List.prefix_cons_inj x |>.2 (filter_le_prefix h2)
    · have : (x :: l).filter (fun x => decide (x ≤ b)) = [] := by
        rw [List.filter_eq_nil_iff]
        intro y hy
        rcases List.mem_cons.1 hy with rfl | hy
        · simpa using hx
        · simpa using fun hc => hx (F32.le_trans (h1 y hy) hc)
      rw [this]; exact List.nil_prefix

theorem beatsIn_infix {l : List F32} (h : l.Pairwise (· ≤ ·)) (a b : F32) : beatsIn l a b <:+: l := by
  unfold beatsIn
  rw [show (fun x => decide (a ≤ x) && decide (x ≤ b)) = (fun x => decide (x ≤ b) && decide (a ≤ x)) by
    funext x; exact Bool.and_comm _ _, ← List.filter_filter]
  have h1 := filter_ge_suffix (a := a) h
  have h2 := filter_le_prefix (b := b) (h.sublist h1.sublist)
  exact h2.isInfix.trans h1.isInfix

theorem gaps_near {T : ℚ} : ∀ {l : List F32}, l.IsChain (fun a b => NearGap T (b - a)) → ∀ x ∈ posIntervals l, NearGap T x
  | [], _ => by simp [posIntervals]
  | [_], _ => by simp [posIntervals]
  | a :: b :: l, h => by
    rw [List.isChain_cons_cons] at h
    intro x hx
    rw [posIntervals] at hx
    split_ifs at hx
    · rcases List.mem_cons.1 hx with rfl | hx
      · exact h.1
      · exact gaps_near h.2 x hx
    · exact gaps_near h.2 x hx

theorem gaps_length_le : ∀ l : List F32, (posIntervals l).length ≤ l.length - 1
  | [] => by simp [posIntervals]
  | [_] => by simp [posIntervals]
  | a :: b :: l => by
    rw [posIntervals]
    have := gaps_length_le (b :: l)
    simp only [List.length_cons] at this ⊢
    split_ifs
    · rw [List.length_cons]; omega
    · omega

/-! ### C114 -/

theorem metro_sorted {p f : ℚ} {n : ℕ} {clicks : List F32} (h : Clicks p f n clicks) : clicks.Pairwise (· ≤ ·) := by
  obtain ⟨h1, h2, _, _, hlen, _, _⟩ := id h
  obtain ⟨t1, _⟩ := beat_len h1 h2
  rw [List.pairwise_iff_getElem]
  intro i j hi hj hij
  obtain ⟨a, ha, ea, ba, _⟩ := h.at (k := i) (by omega)
  obtain ⟨b, hb, eb, bb, _⟩ := h.at (k := j) (by omega)
  rw [List.getElem?_eq_getElem hi] at ea
  rw [List.getElem?_eq_getElem hj] at eb
  rw [Option.some.inj ea, Option.some.inj eb, fin_le_fin]
  have hij' : (i : ℚ) + 1 ≤ j := by exact_mod_cast hij
  have hT : ((i : ℚ) + 1) * (60 / p) ≤ j * (60 / p) := _root_.mul_le_mul_of_nonneg_right hij' (by linarith)
  have a' := abs_le.1 ba
  have b' := abs_le.1 bb
  linarith [a'.2, b'.1]

theorem lattice_chain {p f : ℚ} {hp hf} (h1 : 30 ≤ p) (h2 : p ≤ 300) (f0 : 0 ≤ f) {n : ℕ} (hn : f + n * (60 / p) ≤ 4096) :
    ((List.range (n + 1)).map (Beat.frameTime (fin p hp) (fin f hf))).IsChain (fun a b => NearGap (60 / p) (b - a)) := by
  obtain ⟨t1, t2⟩ := beat_len h1 h2
  rw [List.isChain_iff_getElem]
  intro i hi
  simp only [List.length_map, List.length_range] at hi
  rw [List.getElem_map, List.getElem_map, List.getElem_range, List.getElem_range]
  have hb : ∀ k ≤ n, f + k * (60 / p) ≤ 4099 := fun k hk => by
    have : (k : ℚ) * (60 / p) ≤ n * (60 / p) := _root_.mul_le_mul_of_nonneg_right (by exact_mod_cast hk) (by linarith)
    linarith
  obtain ⟨a, ha, ea, ba⟩ := lattice_time (hp := hp) (hf := hf) h1 h2 f0 (hb i (by omega))
  obtain ⟨b, hb', eb, bb⟩ := lattice_time (hp := hp) (hf := hf) h1 h2 f0 (hb (i + 1) (by omega))
  rw [ea, eb, sub_fin]
  have a' := abs_le.1 ba
  have b' := abs_le.1 bb
  push_cast at b'
  have hd : |b - a - 60 / p| ≤ 1 / 500 := abs_le.2 ⟨by linarith [a'.2, b'.1], by linarith [a'.1, b'.2]⟩
  have hd' := abs_le.1 hd
  have hab : |b - a| ≤ 3 := abs_le.2 ⟨by linarith, by linarith⟩
  obtain ⟨hq, e⟩ := fin_of_le (q := b - a) (_root_.le_trans hab (by norm_num))
  refine ⟨_, hq, e, ?_⟩
  have b3 := abs_le.1 (err_pow (b - a))
  rw [abs_le]
  norm_num at b3 ⊢
  constructor <;> linarith [b3.1, b3.2, hd'.1, hd'.2]

theorem segLoop_no_err {beats : List F32} {nominal last dur : F32} {e : ErrKind} : ∀ (fuel : ℕ) (start : F32),
    segLoop beats nominal last dur fuel start ≠ .error (.err e)
  | 0, _ => by simp [segLoop, R.outOfFuel]
  | fuel + 1, start => by
    rw [segLoop]
    split_ifs
    · intro h
      cases hs : segLoop beats nominal last dur fuel (start + (dur - dur * 0.5)) with
      | ok l => rw [hs] at h; cases h
      | error e' =>
        rw [hs] at h
        have : e' = .err e := Except.error.inj h
        exact segLoop_no_err fuel _ (this ▸ hs)
    · intro h; cases h

/-- **C114**: given clicks of a metronome (each up to 40 ms off, in any order) and its tempo, the beat grid has exactly
one beat per click, within a millisecond of the exact time, and the grid is reported stable. -/
theorem C114_metronome (M : Libm) (hL : ExpLarge M) (hS : ExpSmall M) (fuel : ℕ) (hfuel : 2 ^ 27 ≤ fuel) (bpm conf : F32)
    (hbpm : bpm.isFinite = true) (f : ℚ) (n : ℕ) (clicks onsets : List F32) (hc : Clicks bpm.val f n clicks)
    (hperm : onsets.Perm clicks) :
    ∃ g st, beatGrid M fuel bpm conf onsets = .ok (g, st) ∧ g.beats.length = n + 1 ∧
      (∀ k ≤ n, (g.beats.getD k 0).isFinite = true ∧ |(g.beats.getD k 0).val - (f + k * (60 / bpm.val))| ≤ 1 / 1000) ∧
      (1 ≤ n → 0.9375 ≤ st ∧ st ≤ 1) := by
  obtain ⟨p, hp, rfl⟩ := isFinite_iff.1 hbpm
  change Clicks p f n clicks at hc
  change ∃ g st, _ ∧ _ ∧ (∀ k ≤ n, _ ∧ |_ - (f + k * (60 / p))| ≤ _) ∧ _
  obtain ⟨h1, h2, f0, hn, hlen, _, _⟩ := id hc
  obtain ⟨t1, t2⟩ := beat_len h1 h2
  obtain ⟨f', hf, e0, _, ef⟩ := hc.at (k := 0) (by omega)
  obtain rfl := ef rfl
  have hhead : clicks.head? = some (fin f' hf) := by rw [List.head?_eq_getElem?]; exact e0
  -- sorting
  have hfin : ∀ o ∈ onsets, o ≠ nan := by
    intro o ho
    obtain ⟨k, hk, rfl⟩ := List.getElem_of_mem (hperm.mem_iff.1 ho)
    obtain ⟨a, ha, ea, _, _⟩ := hc.at (k := k) (by omega)
    rw [List.getElem?_eq_getElem hk] at ea
    rw [Option.some.inj ea]; simp
  have hsort : sortAscP id onsets = .ok clicks := by
    have hs := sortAscP_of_ne_nan (key := (id : F32 → F32)) (l := onsets) hfin
    obtain ⟨_, hpm, hpw⟩ := sortAscP_ok hs
    rw [hs]
    congr 1
    exact List.Perm.eq_of_pairwise (le := fun a b : F32 => a ≤ b) (fun a b _ _ hab hba => F32.le_antisymm hab hba)
      hpw (metro_sorted hc) (hpm.trans hperm)
  obtain ⟨beats, hbeats, htimes⟩ := click_beats (hp := hp) (hf := hf) hL hS hc hhead
  have hchain := lattice_chain (hp := hp) (hf := hf) h1 h2 f0 hn
  have hnT : 0 ≤ (n : ℚ) * (60 / p) := _root_.mul_nonneg (Nat.cast_nonneg n) (by linarith)
  have hnn : (n : ℚ) ≤ 20480 := by
    have h5 : (n : ℚ) * (1 / 5) ≤ n * (60 / p) := _root_.mul_le_mul_of_nonneg_left t1 (Nat.cast_nonneg n)
    linarith
  have hnN : n ≤ 20480 := by exact_mod_cast hnn
  have hp0 : EPS.val < p := by
    have : EPS.val < 1 := by decide +kernel
    linarith
  have hpw : (beats.map BeatPos.time).Pairwise (· ≤ ·) := by
    rw [htimes, List.pairwise_map]
    refine List.Pairwise.imp_of_mem ?_ (List.pairwise_lt_range (n := n + 1))
    intro a b ha hb' hab
    exact F32.le_of_lt (frameTime_lt hp0 h2 (by linarith) (by linarith) hab (by have := List.mem_range.1 hb'; omega))
  have hval : ∀ k ≤ n, ∃ w hw, (beats.map BeatPos.time)[k]? = some (fin w hw) ∧ |w - (f' + k * (60 / p))| ≤ 1 / 1000 ∧
      -16777216 ≤ (fin w hw : F32) ∧ (fin w hw : F32) ≤ 16777216 := by
    intro k hk
    have hkn : (k : ℚ) * (60 / p) ≤ n * (60 / p) := _root_.mul_le_mul_of_nonneg_right (by exact_mod_cast hk) (by linarith)
    have hk0 : 0 ≤ (k : ℚ) * (60 / p) := _root_.mul_nonneg (Nat.cast_nonneg k) (by linarith)
    obtain ⟨w, hw, ew, bw⟩ := lattice_time (hp := hp) (hf := hf) h1 h2 f0 (t := k) (by linarith)
    have bw' := abs_le.1 bw
    obtain ⟨hB, eB⟩ : ∃ h, (16777216 : F32) = fin 16777216 h := ⟨by decide +kernel, by decide +kernel⟩
    obtain ⟨hA, eA⟩ : ∃ h, (-16777216 : F32) = fin (-16777216) h := ⟨by decide +kernel, by decide +kernel⟩
    refine ⟨w, hw, ?_, bw, ?_, ?_⟩
    · rw [htimes, List.getElem?_map, List.getElem?_range (by omega), ← ew]; rfl
    · rw [eA, fin_le_fin]; linarith
    · rw [eB, fin_le_fin]; linarith
  have hlenT : (beats.map BeatPos.time).length = n + 1 := by rw [htimes]; simp
  have hlenB : beats.length = n + 1 := by rw [← hlenT, List.length_map]
  have hmem : ∀ b ∈ beats.map BeatPos.time, b.isFinite = true ∧ -16777216 ≤ b ∧ b ≤ 16777216 := by
    intro b hb
    obtain ⟨k, hk, rfl⟩ := List.getElem_of_mem hb
    obtain ⟨w, hw, e, _, r1, r2⟩ := hval k (by omega)
    rw [List.getElem?_eq_getElem hk] at e
    rw [Option.some.inj e]; exact ⟨rfl, r1, r2⟩
  have hne : beats ≠ [] := by rintro rfl; simp at hlenB
  have hE : ¬ fin p hp ≤ EPS := by
    obtain ⟨he, ee⟩ : ∃ h, EPS = fin EPS.val h := ⟨by decide +kernel, by decide +kernel⟩
    rw [ee, fin_le_fin]; linarith
  have h0 : ¬ fin p hp ≤ 0 := by rw [zero_def, fin_le_fin]; linarith
  have h300 : ¬ (300 : F32) < fin p hp := by
    obtain ⟨h3, e3⟩ : ∃ h, (300 : F32) = fin 300 h := ⟨by decide +kernel, by decide +kernel⟩
    rw [e3, fin_lt_fin]; linarith
  -- gaps of any run of consecutive beats
  have hcv : ∀ l : List F32, l <:+: beats.map BeatPos.time → gaps l ≠ [] → EPS < mean (gaps l) ∧
      0 ≤ F32.sqrt (variance (gaps l) (mean (gaps l))) / mean (gaps l) ∧
      F32.sqrt (variance (gaps l) (mean (gaps l))) / mean (gaps l) ≤ 0.0625 := by
    intro l hl hg
    rw [← posIntervals_eq] at hg ⊢
    have hlen : (posIntervals l).length ≤ n := by
      have a := gaps_length_le l
      have b := hl.length_le
      omega
    refine steady_cv t1 t2 hg (by omega) ?_ (gaps_near (List.IsChain.infix (by rw [htimes]; exact hchain) hl))
    have : ((posIntervals l).length : ℚ) * (60 / p) ≤ n * (60 / p) :=
      _root_.mul_le_mul_of_nonneg_right (by exact_mod_cast hlen) (by linarith)
    linarith
  -- no segment varies
  obtain ⟨segs, hsegs⟩ : ∃ segs, tempoSegments fuel (beats.map BeatPos.time) (fin p hp) = .ok segs := by
    rcases C34_terminates_partial (beats.map BeatPos.time) (fin p hp) (fun b hb => (hmem b hb).2) fuel hfuel with h | h
    · exact h
    · exfalso
      unfold tempoSegments at h
      by_cases hl4 : (beats.map BeatPos.time).length < 4
      · rw [if_pos hl4] at h; cases h
      rw [if_neg hl4, if_neg hE] at h
      dsimp only at h
      split_ifs at h
      cases hs : segLoop (beats.map BeatPos.time) (fin p hp) ((beats.map BeatPos.time).getLastD 0)
        (F32.clamp (((beats.map BeatPos.time).getLastD 0 - (beats.map BeatPos.time).headD 0) / 4) 4 8) fuel
        ((beats.map BeatPos.time).headD 0) with
      | ok l => rw [hs] at h; cases h
      | error e =>
        rw [hs] at h
        have : e = .err .invalidInput := by
          change Except.error e = _ at h
          exact Except.error.inj h
        rw [this] at hs
        exact segLoop_no_err _ _ hs
  have hflat : hasVariation segs = false := by
    obtain ⟨_, _, _, hm, hv⟩ := C35_segments fuel _ _ segs hpw (fun b hb => (hmem b hb).1)
      (F32.lt_of_not_le (by simp) (by simp) h0) hsegs
    rw [Bool.eq_false_iff]
    intro hv'
    obtain ⟨s, hs, hsv⟩ := hv.1 hv'
    rcases hm with ⟨c, rfl⟩ | hm
    · rw [List.mem_singleton] at hs; rw [hs] at hsv; cases hsv
    · have hM := hm s hs
      have hlt := hM.flag.1 hsv
      obtain ⟨c1, c2, c3⟩ := hcv _ (beatsIn_infix hpw s.start s.stop) hM.gap
      have hgv : gapVariation (gaps (beatsIn (beats.map BeatPos.time) s.start s.stop)) ≤ 0.0625 := by
        generalize gaps (beatsIn (beats.map BeatPos.time) s.start s.stop) = G at c1 c2 c3 ⊢
        show (if (1e-10 : F32) < mean G then F32.sqrt (variance G (mean G)) / mean G else 0) ≤ 0.0625
        rw [if_pos (show (1e-10 : F32) < mean G from c1)]
        exact c3
      exact F32.lt_irrefl _ (F32.lt_of_lt_of_le hlt (F32.le_trans hgv (by decide +kernel)))
  -- meter, grid, stability
  obtain ⟨sig, c, hts⟩ : ∃ sig c, timeSignature (beats.map BeatPos.time) (fin p hp) = .ok (sig, c) := by
    obtain ⟨a1, _, a3⟩ := C36_total (beats.map BeatPos.time) (fin p hp)
    by_cases hl : (beats.map BeatPos.time).length < 8
    · exact ⟨_, _, a1 hl⟩
    · obtain ⟨sig, c, h, _⟩ := a3 (by omega) hE
      exact ⟨sig, c, h⟩
  obtain ⟨g, hg⟩ : ∃ g, gridOf beats (fin p hp) sig = .ok g := by
    unfold gridOf
    rw [if_neg hne, sortAscP_of_ne_nan (key := (id : F32 → F32)) (fun b hb => ne_nan_left (hmem b hb).2.2)]
    show ∃ g, (downbeats _ _ _).bind _ = _
    unfold downbeats
    cases sortAsc id (beats.map BeatPos.time) with
    | nil => exact ⟨_, rfl⟩
    | cons b bs => dsimp only; rw [if_neg h0]; exact ⟨_, rfl⟩
  obtain ⟨_, gs, gp, _⟩ := gridOf_spec hg
  have hgb : g.beats = beats.map BeatPos.time :=
    List.Perm.eq_of_pairwise (le := fun a b : F32 => a ≤ b) (fun a b _ _ hab hba => F32.le_antisymm hab hba) gs hpw gp
  obtain ⟨st, hst, hst'⟩ : ∃ st, stability beats (fin p hp) = .ok st ∧ (1 ≤ n → 0.9375 ≤ st ∧ st ≤ 1) := by
    by_cases hn1 : 1 ≤ n
    · have hgne : gaps (beats.map BeatPos.time) ≠ [] := by
        rw [← posIntervals_eq, htimes]
        obtain ⟨m, rfl⟩ : ∃ m, n = m + 1 := ⟨n - 1, by omega⟩
        rw [List.range_succ_eq_map, List.range_succ_eq_map]
        simp only [List.map_cons, List.map_map]
        unfold posIntervals
        have hlt : (0 : F32) < Beat.frameTime (fin p hp) (fin f' hf) 1 - Beat.frameTime (fin p hp) (fin f' hf) 0 := by
          rw [htimes] at hcv
          have := hchain
          rw [List.isChain_iff_getElem] at this
          have h01 := this 0 (by simp)
          rw [List.getElem_map, List.getElem_map, List.getElem_range, List.getElem_range] at h01
          obtain ⟨v, hv, e, b⟩ := h01
          have e' : Beat.frameTime (fin p hp) (fin f' hf) 1 - Beat.frameTime (fin p hp) (fin f' hf) 0 = fin v hv := e
          rw [e', zero_def, fin_lt_fin]
          have := abs_le.1 b
          linarith [this.1]
        rw [if_pos hlt]
        simp
      obtain ⟨c1, c2, c3⟩ := hcv _ List.infix_rfl hgne
      refine ⟨_, stability_unfold (by omega) h0 hgne (F32.not_le_of_lt c1), fun _ => ?_⟩
      generalize F32.sqrt (variance (gaps (beats.map BeatPos.time)) (mean (gaps (beats.map BeatPos.time)))) /
        mean (gaps (beats.map BeatPos.time)) = cv at c2 c3
      obtain ⟨hy, ey⟩ : ∃ h, (0.0625 : F32) = fin (1 / 16) h := ⟨by decide +kernel, by decide +kernel⟩
      obtain ⟨hz, ez⟩ : ∃ h, (0.9375 : F32) = fin (15 / 16) h := ⟨by decide +kernel, by decide +kernel⟩
      rw [ey] at c3
      rw [zero_def] at c2
      obtain ⟨q, hq, rfl, q0, q1⟩ := between_cases c2 c3
      have hg17 : OnGrid (17 / 16 : ℚ) ∧ |(17 / 16 : ℚ)| < pow2 128 := by decide +kernel
      have l1 : (1 : F32) ≤ 1 + fin q hq := by
        rw [one_def, add_fin]; exact fin_le_rnd (by linarith)
      have l2 : (1 : F32) + fin q hq ≤ fin (17 / 16) hg17 := by
        rw [one_def, add_fin]; exact rnd_le_fin (by linarith)
      generalize (1 : F32) + fin q hq = s at l1 l2
      rw [one_def] at l1
      obtain ⟨r, hr, rfl, r0, r1⟩ := between_cases l1 l2
      rw [ez, one_def, div_fin (by linarith)]
      constructor
      · apply fin_le_rnd
        rw [le_div_iff₀ (by linarith)]; linarith
      · apply rnd_le_fin
        rw [_root_.div_le_one (by linarith)]; linarith
    · refine ⟨_, (C30_zero beats (fin p hp)).1 (by omega), fun h => absurd h hn1⟩
  refine ⟨g, st, ?_, by rw [hgb, hlenT], ?_, hst'⟩
  · unfold beatGrid
    have hno : onsets ≠ [] := by
      rintro rfl
      have := hperm.length_eq
      simp at this; omega
    rw [if_neg (by rintro (h | h); exacts [h0 h, h300 h]), if_neg hno, hsort]
    simp only [Bind.bind, Except.bind]
    rw [hbeats]
    simp only
    rw [if_neg hne, hsegs]
    simp only [hflat, Bool.false_eq_true, if_false]
    rw [hts]
    simp only
    rw [hg]
    simp only
    rw [hst]
    rfl
  · intro k hk
    obtain ⟨w, hw, e, b, _⟩ := hval k hk
    rw [hgb, List.getD_eq_getElem?_getD, e]
    exact ⟨rfl, b⟩

/-- non-vacuity: the demonstration `exp` meets both conditions; nine clicks at 120 BPM, up to 32 ms off -/
example : ExpLarge Libm.demo := by
  intro x h2 h0
  show _ < (if x ≤ 0 then (if x < -2 then (0 : F32) else 0.5) else 1)
  rw [if_pos h0, if_neg (fun h => F32.not_le_of_lt h h2)]
  decide +kernel
def nineClicks : List F32 := [0.25, 0.78125, 1.25, 1.71875, 2.25, 2.75, 3.25, 3.78125, 4.25]
theorem nineClicks_ok : Clicks (120 : F32).val (1 / 4) 8 nineClicks := by
  unfold Clicks nineClicks
  decide +kernel
example : (match beatGrid Libm.demo 300 120 1 nineClicks with
    | .ok (g, st) => some (g.beats, st) | .error _ => none) =
    some ([0.25, 0.75, 1.25, 1.75, 2.25, 2.75, 3.25, 3.75, 4.25], 1) := by decide +kernel

/-! ### a tempo that is not quite the estimate -/

/-- **C115** (partial: the tempi differ by so little that the clicks stay within 40 ms of the estimated lattice up to the
last one): clicks at `q` BPM tracked with the estimate `p` give exactly one beat per click, within 41 ms of it.
Missing: any drift beyond that, although the tracker has states for tempi 5 % and 10 % off, see `C115_violated`. -/
theorem C115_partial (M : Libm) (hL : ExpLarge M) (hS : ExpSmall M) (bpm : F32) (hbpm : bpm.isFinite = true)
    (h1 : 30 ≤ bpm.val) (h2 : bpm.val ≤ 300) (q f : ℚ) (n : ℕ) (onsets : List F32) (f0 : 0 ≤ f)
    (hend : f + n * (60 / bpm.val) ≤ 4096) (hlen : onsets.length = n + 1) (hfirst : (onsets.getD 0 0).val = f)
    (hq : ∀ k ≤ n, (onsets.getD k 0).isFinite = true ∧ |(onsets.getD k 0).val - (f + k * (60 / q))| ≤ 1 / 1000)
    (hdrift : n * |60 / q - 60 / bpm.val| ≤ 39 / 1000) :
    ∃ beats, trackBeats M bpm onsets = .ok beats ∧ beats.length = n + 1 ∧
      ∀ k ≤ n, ((beats.map BeatPos.time).getD k 0).isFinite = true ∧
        |((beats.map BeatPos.time).getD k 0).val - (onsets.getD k 0).val| ≤ 41 / 1000 := by
  obtain ⟨p, hp, rfl⟩ := isFinite_iff.1 hbpm
  change 30 ≤ p at h1
  change p ≤ 300 at h2
  change f + n * (60 / p) ≤ 4096 at hend
  change n * |60 / q - 60 / p| ≤ 39 / 1000 at hdrift
  have hdev : ∀ k ≤ n, |(onsets.getD k 0).val - (f + k * (60 / p))| ≤ 1 / 25 := by
    intro k hk
    have hkn : (k : ℚ) * |60 / q - 60 / p| ≤ n * |60 / q - 60 / p| :=
      _root_.mul_le_mul_of_nonneg_right (by exact_mod_cast hk) (_root_.abs_nonneg _)
    have e : (k : ℚ) * |60 / q - 60 / p| = |k * (60 / q) - k * (60 / p)| := by
      rw [← mul_sub, _root_.abs_mul, _root_.abs_of_nonneg (Nat.cast_nonneg k : (0 : ℚ) ≤ k)]
    rw [e] at hkn
    have a := abs_le.1 (_root_.le_trans hkn hdrift)
    have b := abs_le.1 (hq k hk).2
    rw [abs_le]
    constructor <;> linarith [a.1, a.2, b.1, b.2]
  have hc : Clicks p f n onsets := ⟨h1, h2, f0, hend, hlen, hfirst, fun k hk => ⟨(hq k hk).1, hdev k hk⟩⟩
  obtain ⟨f', hf, e0, _, ef⟩ := hc.at (k := 0) (by omega)
  obtain rfl := ef rfl
  obtain ⟨beats, hb, ht⟩ := click_beats (hp := hp) (hf := hf) hL hS hc (by rw [List.head?_eq_getElem?]; exact e0)
  refine ⟨beats, hb, ?_, ?_⟩
  · have := congrArg List.length ht
    simpa using this
  · intro k hk
    have hkn : (k : ℚ) * (60 / p) ≤ n * (60 / p) :=
      _root_.mul_le_mul_of_nonneg_right (by exact_mod_cast hk) (by linarith [(beat_len h1 h2).1])
    obtain ⟨w, hw, ew, bw⟩ := lattice_time (hp := hp) (hf := hf) h1 h2 f0 (t := k) (by linarith)
    rw [ht, List.getD_eq_getElem?_getD, List.getElem?_map, List.getElem?_range (by omega), Option.map_some, ew]
    refine ⟨rfl, ?_⟩
    show |w - _| ≤ _
    have a := abs_le.1 bw
    have b := abs_le.1 (hdev k hk)
    rw [abs_le]
    constructor <;> linarith [a.1, a.2, b.1, b.2]

/-- eighteen clicks of a metronome at 126 BPM -/
def clicks126 : List F32 := (List.range 18).map (fun k => F32.ofNat k * (60 / 126))

/-- non-vacuity: four clicks at 121 BPM tracked with the estimate 120 -/
example : (match trackBeats Libm.demo 120 [0, 0.4960938, 0.9921875, 1.488281] with
    | .ok bs => bs.map (·.time) | .error _ => []) = [0, 0.5, 1, 1.5] ∧
    (3 : ℚ) * |60 / 121 - 60 / (120 : F32).val| ≤ 39 / 1000 ∧
    ∀ k ≤ 3, |(([0, 0.4960938, 0.9921875, 1.488281] : List F32).getD k 0).val - (0 + k * (60 / 121))| ≤ 1 / 1000 := by
  decide +kernel

/-- the points of the 120 BPM lattice close enough to one of these clicks -/
theorem lattice_120 : ∀ t < 18, (∃ o ∈ clicks126, (o - Beat.frameTime 120 0 t).abs ≤ 0.054) → t ≤ 2 := by
  decide +kernel

/-- **C115 violated**: 126 BPM is (to rounding) the tempo of the tracker's own state "+5 %" for the estimate 120, yet of eighteen
perfectly regular clicks at 126 BPM at most the first three become beats; nothing is reported after the first second. -/
theorem C115_violated (M : Libm) (hS : ExpSmall M) : (∃ s ∈ stateBpms 120, (s - 126).abs ≤ 0.00001) ∧
    ∃ beats, trackBeats M 120 clicks126 = .ok beats ∧ beats.length ≤ 3 ∧ ∀ b ∈ beats, b.time ≤ 1 := by
  refine ⟨⟨120 * 1.05, by simp [stateBpms], by decide +kernel⟩, ?_⟩
  have hh : clicks126.head? = some 0 := by decide +kernel
  have hl : clicks126.getLast? = some (F32.ofNat 17 * (60 / 126)) := by decide +kernel
  have hN : numFrames 120 0 (F32.ofNat 17 * (60 / 126)) = .ok 18 := by decide +kernel
  have hnan : ∀ t < 18, Beat.frameTime 120 0 t ≠ nan := by decide +kernel
  rw [trackBeats_eq (by decide +kernel) hh hl, hN]
  have hs := sortAscP_of_ne_nan (key := BeatPos.time) (l := Beat.lattice M 120 0 clicks126 18) (by
    intro b hb
    obtain ⟨t, ht, _, hbt⟩ := mem_lattice.1 hb
    rw [(beatAt_conf hbt).1]; exact hnan t ht)
  obtain ⟨_, hperm, _⟩ := sortAscP_ok hs
  have hfew : Beat.lattice M 120 0 clicks126 18 = Beat.lattice M 120 0 clicks126 3 := by
    unfold Beat.lattice
    rw [show (18 : ℕ) = 3 + 15 by norm_num, List.range_add, List.filterMap_append]
    refine List.append_right_eq_self.2 ?_
    rw [List.filterMap_eq_nil_iff]
    intro t ht
    obtain ⟨k, hk, rfl⟩ := List.mem_map.1 ht
    have hk := List.mem_range.1 hk
    unfold beatAt
    rw [if_neg]
    intro he
    have := lattice_120 (3 + k) (by omega) (near_onset hS he)
    omega
  refine ⟨_, hs, ?_, ?_⟩
  · rw [hperm.length_eq, hfew]
    unfold Beat.lattice
    exact _root_.le_trans (List.length_filterMap_le _ _) (by simp)
  · intro b hb
    have hb := hperm.mem_iff.1 hb
    rw [hfew] at hb
    obtain ⟨t, ht, _, hbt⟩ := mem_lattice.1 hb
    rw [(beatAt_conf hbt).1]
    have : ∀ t < 3, Beat.frameTime 120 0 t ≤ 1 := by decide +kernel
    exact this t ht

/-- non-vacuity: the demonstration `exp` -/
example : (match trackBeats Libm.demo 120 clicks126 with
    | .ok bs => bs.map (·.time) | .error _ => []) = [0, 0.5, 1] := by decide +kernel

end Verif.Props
