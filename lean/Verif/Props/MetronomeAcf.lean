/-
What the autocorrelation estimator makes of a metronome (C102): src/features/period/autocorrelation.rs.
-/
import Verif.Props.Metronome
import Verif.F32.Scale
import Mathlib.Data.Finset.Card
import Mathlib.Order.Interval.Finset.Nat

namespace Verif.Props
open Verif F32 Period

/-! ### Specification -/

/-- number of pairs of flagged frames that are `k` frames apart -/
def pairs (sig : List F32) (k : ℕ) : ℕ :=
  ((Finset.range sig.length).filter (fun i => sig[i]? = some 1 ∧ sig[i + k]? = some 1)).card

/-- the Fourier transforms are good enough: the autocorrelation of the onset flags is off by at most 1/20 -/
def AccurateAcf (ifft : List F32 → ℕ → F32) (onsets : List ℕ) (hop : ℕ) : Prop :=
  ∀ sig e, Flags onsets hop sig → 2 * sig.length ≤ 2 ^ e → (∀ j < e, 2 ^ j < 2 * sig.length) → ∀ k < sig.length,
    ∃ v hv, ifft sig k * (1 / F32.ofNat (2 ^ e)) = fin v hv ∧ |v - pairs sig k| ≤ 1 / 20

/-- the tempo of a beat of `p` hops -/
def tempoOf (sr hop p : ℕ) : F32 := 60 * F32.ofNat sr / (F32.ofNat p * F32.ofNat hop)

/-! ### Counting pairs -/

theorem flags_get {onsets : List ℕ} {hop : ℕ} {sig : List F32} (h : Flags onsets hop sig) (i : ℕ) :
    sig[i]? = some 1 ↔ ∃ o ∈ onsets, o / hop = i := by
  constructor
  · intro hi
    by_contra hn
    have := ((h.2.2 i 1 hi).2 hn)
    exact absurd this (by decide +kernel)
  · rintro ⟨o, ho, rfl⟩
    have hl := h.1 o ho
    have := (h.2.2 _ _ (List.getElem?_eq_getElem hl)).1 ⟨o, ho, rfl⟩
    rw [List.getElem?_eq_getElem hl, this]

theorem pairs_of {onsets : List ℕ} {hop : ℕ} {sig : List F32} (h : Flags onsets hop sig) (k n : ℕ) (g : ℕ → ℕ)
    (hg : ∀ a b, g a = g b → a = b)
    (hset : ∀ i, ((∃ o ∈ onsets, o / hop = i) ∧ ∃ o ∈ onsets, o / hop = i + k) ↔ ∃ a < n, g a = i) : pairs sig k = n := by
  have e : (Finset.range sig.length).filter (fun i => sig[i]? = some 1 ∧ sig[i + k]? = some 1) = (Finset.range n).image g := by
    ext i
    rw [Finset.mem_filter, Finset.mem_image, flags_get h, flags_get h, hset]
    constructor
    · rintro ⟨-, a, ha, e⟩
      exact ⟨a, Finset.mem_range.2 ha, e⟩
    · rintro ⟨a, ha, e⟩
      have ha := Finset.mem_range.1 ha
      obtain ⟨⟨o, ho, e'⟩, -⟩ := (hset i).2 ⟨a, ha, e⟩
      exact ⟨Finset.mem_range.2 (by rw [← e']; exact h.1 o ho), a, ha, e⟩
  unfold pairs
  rw [e, Finset.card_image_of_injective _ hg, Finset.card_range]

/-- frames of the clicks of a metronome with a whole number of hops per beat -/
theorem click_frames {f p hop m : ℕ} (hh : 0 < hop) (i : ℕ) :
    (∃ o ∈ clicks f (p * hop) m, o / hop = i) ↔ ∃ a < m, f / hop + a * p = i := by
  constructor
  · rintro ⟨o, ho, rfl⟩
    obtain ⟨a, ha, rfl⟩ := mem_clicks.1 ho
    exact ⟨a, ha, by rw [← Nat.mul_assoc, Nat.add_mul_div_right _ _ hh]⟩
  · rintro ⟨a, ha, rfl⟩
    exact ⟨_, mem_clicks.2 ⟨a, ha, rfl⟩, by rw [← Nat.mul_assoc, Nat.add_mul_div_right _ _ hh]⟩

theorem pairs_mult {f p hop m q : ℕ} {sig : List F32} (hh : 0 < hop) (hp : 0 < p)
    (h : Flags (clicks f (p * hop) m) hop sig) : pairs sig (q * p) = m - q := by
  refine pairs_of h _ _ (fun a => f / hop + a * p) (fun a b e => Nat.eq_of_mul_eq_mul_right hp (Nat.add_left_cancel e)) ?_
  intro i
  rw [click_frames hh, click_frames hh]
  constructor
  · rintro ⟨⟨a, ha, rfl⟩, b, hb, e⟩
    refine ⟨a, ?_, rfl⟩
    have : b * p = (a + q) * p := by rw [Nat.add_mul]; omega
    have := Nat.eq_of_mul_eq_mul_right hp this
    omega
  · rintro ⟨a, ha, rfl⟩
    exact ⟨⟨a, by omega, rfl⟩, a + q, by omega, by rw [Nat.add_mul]; omega⟩

theorem pairs_other {f p hop m k : ℕ} {sig : List F32} (hh : 0 < hop)
    (h : Flags (clicks f (p * hop) m) hop sig) (hk : ¬ p ∣ k) : pairs sig k = 0 := by
  refine pairs_of h _ _ id (fun a b e => e) ?_
  intro i
  rw [click_frames hh, click_frames hh]
  constructor
  · rintro ⟨⟨a, ha, rfl⟩, b, hb, e⟩
    exfalso
    apply hk
    have e' : b * p = a * p + k := by omega
    exact (Nat.dvd_add_right (Nat.dvd_mul_left p a)).1 (e' ▸ Nat.dvd_mul_left p b)
  · rintro ⟨a, ha, -⟩; omega

theorem flags_length {f p hop m : ℕ} {sig : List F32} (hh : 0 < hop)
    (h : Flags (clicks f (p * hop) (m + 1)) hop sig) : sig.length = f / hop + m * p + 1 := by
  obtain ⟨h1, ⟨o, ho, e⟩, -⟩ := h
  obtain ⟨a, ha, e1⟩ := (click_frames hh _).1 ⟨o, ho, rfl⟩
  obtain ⟨b, hb, e2⟩ := (click_frames (m := m + 1) hh (f / hop + m * p)).2 ⟨m, by omega, rfl⟩
  have h3 := h1 b hb
  have := Nat.mul_le_mul_right p (by omega : a ≤ m)
  omega

/-! ### Values and peaks -/

theorem acf_value {ifft : List F32 → ℕ → F32} {sig : List F32} {e k n : ℕ}
    (h : ∃ v hv, ifft sig k * (1 / F32.ofNat (2 ^ e)) = fin v hv ∧ |v - n| ≤ 1 / 20) :
    ∃ w hw, AcfAt ifft sig e k = fin w hw ∧ 0 ≤ w ∧ (n : ℚ) - 1 / 20 ≤ w ∧ w ≤ n + 1 / 20 := by
  obtain ⟨v, hv, e1, hb⟩ := h
  rw [abs_le] at hb
  unfold AcfAt
  rw [e1]
  have hn : (0 : ℚ) ≤ n := by positivity
  by_cases h0 : 0 ≤ v
  · refine ⟨v, hv, ?_, h0, by linarith [hb.1], by linarith [hb.2]⟩
    have : (0 : F32) ≤ fin v hv := by rw [zero_def]; exact fin_le_fin.2 h0
    exact le_antisymm (F32.max_le (F32.le_refl (by simp)) this) (F32.le_max_left (by simp))
  · refine ⟨0, grid_zero, ?_, _root_.le_refl _, by linarith [hb.1], by linarith⟩
    rw [← zero_def]
    have : fin v hv ≤ (0 : F32) := by rw [zero_def]; exact fin_le_fin.2 (by linarith)
    exact le_antisymm (F32.max_le this (F32.le_refl zero_ne_nan)) (F32.le_max_right zero_ne_nan)

/-- the local maxima that stand out by `prom` -/
def AcfPeak (s : List F32) (prom : F32) (i : ℕ) : Prop :=
  at' s (i - 1) < at' s i ∧ at' s (i + 1) < at' s i ∧ prom ≤ at' s i - F32.max (at' s (i - 1)) (at' s (i + 1))

instance (s : List F32) (prom : F32) (i : ℕ) : Decidable (AcfPeak s prom i) := by unfold AcfPeak; infer_instance

theorem acfPeaksFrom_sound {s : List F32} {off : ℕ} {prom : F32} :
    ∀ (is : List ℕ) (ps out : List (ℕ × F32)), acfPeaksFrom s off prom is ps = .ok out →
      ∀ q ∈ out, q ∈ ps ∨ ∃ i ∈ is, AcfPeak s prom i ∧ q = (i + off, at' s i) := by
  intro is
  induction is with
  | nil =>
    intro ps out h q hq
    have : ps = out := Except.ok.inj h
    exact .inl (this ▸ hq)
  | cons i is ih =>
    intro ps out h q hq
    have key : ∀ ps', acfPeaksFrom s off prom is ps' = .ok out →
        (∀ q ∈ ps', q ∈ ps ∨ (AcfPeak s prom i ∧ q = (i + off, at' s i))) →
        q ∈ ps ∨ ∃ j ∈ i :: is, AcfPeak s prom j ∧ q = (j + off, at' s j) := by
      intro ps' h' hps'
      rcases ih ps' out h' q hq with h1 | ⟨j, hj, h1⟩
      · rcases hps' q h1 with h2 | h2
        · exact .inl h2
        · exact .inr ⟨i, List.mem_cons_self, h2⟩
      · exact .inr ⟨j, List.mem_cons_of_mem _ hj, h1⟩
    unfold acfPeaksFrom at h
    split_ifs at h with hc
    · have happ : ∀ qs : List (ℕ × F32), (∀ q ∈ qs, q ∈ ps) → ∀ q ∈ qs ++ [(i + off, at' s i)],
          q ∈ ps ∨ (AcfPeak s prom i ∧ q = (i + off, at' s i)) := by
        intro qs hqs q hq
        rcases List.mem_append.1 hq with hq | hq
        · exact .inl (hqs q hq)
        · exact .inr ⟨hc, List.mem_singleton.1 hq⟩
      cases hl : ps.getLast? with
      | none =>
        rw [hl] at h
        exact key _ h (happ ps (fun q hq => hq))
      | some r =>
        rw [hl] at h
        dsimp only at h
        obtain ⟨d, -, h⟩ := R.bind_eq_ok.1 h
        split_ifs at h
        · exact key _ h (happ ps (fun q hq => hq))
        · exact key _ h (happ _ (fun q hq => List.dropLast_subset _ hq))
        · exact key _ h (fun q hq => .inl hq)
    · exact key _ h (fun q hq => .inl hq)

/-- peaks that are never next to each other are all kept -/
theorem acfPeaksFrom_sparse {s : List F32} {off : ℕ} {prom : F32} :
    ∀ (is : List ℕ) (ps : List (ℕ × F32)), is.Pairwise (· < ·) →
      (∀ i ∈ is, ∀ j ∈ is, AcfPeak s prom i → AcfPeak s prom j → i < j → i + 2 ≤ j) →
      (∀ q ∈ ps, q.1 < 2 ^ 31 ∧ ∀ i ∈ is, AcfPeak s prom i → q.1 + 2 ≤ i + off) → (∀ i ∈ is, i + off < 2 ^ 31) →
      acfPeaksFrom s off prom is ps =
        .ok (ps ++ (is.filter (fun i => decide (AcfPeak s prom i))).map (fun i => (i + off, at' s i))) := by
  intro is
  induction is with
  | nil => intro ps _ _ _ _; simp [acfPeaksFrom]
  | cons i is ih =>
    intro ps hpw hsp hps hb
    obtain ⟨hlt, hpw'⟩ := List.pairwise_cons.1 hpw
    have hb' : ∀ j ∈ is, j + off < 2 ^ 31 := fun j hj => hb j (List.mem_cons_of_mem _ hj)
    have hsp' : ∀ a ∈ is, ∀ b ∈ is, AcfPeak s prom a → AcfPeak s prom b → a < b → a + 2 ≤ b :=
      fun a ha b hb => hsp a (List.mem_cons_of_mem _ ha) b (List.mem_cons_of_mem _ hb)
    by_cases hc : AcfPeak s prom i
    · have hstep : acfPeaksFrom s off prom (i :: is) ps = acfPeaksFrom s off prom is (ps ++ [(i + off, at' s i)]) := by
        rw [acfPeaksFrom]
        unfold AcfPeak at hc
        rw [if_pos hc]
        cases hl : ps.getLast? with
        | none => rfl
        | some q =>
          dsimp only
          obtain ⟨h1, h2⟩ := hps q (List.mem_of_getLast? hl)
          have h3 := h2 i List.mem_cons_self (by unfold AcfPeak; exact hc)
          rw [distI32_small (hb i List.mem_cons_self) h1]
          simp only [R.ok_bind]
          rw [if_pos]
          rw [le_abs]
          left; omega
      rw [hstep, ih _ hpw' hsp' ?_ hb', List.filter_cons_of_pos (by simpa using hc)]
      · simp
      · intro q hq
        rcases List.mem_append.1 hq with hq | hq
        · exact ⟨(hps q hq).1, fun j hj => (hps q hq).2 j (List.mem_cons_of_mem _ hj)⟩
        · rw [List.mem_singleton.1 hq]
          refine ⟨hb i List.mem_cons_self, fun j hj hpj => ?_⟩
          have := hsp i List.mem_cons_self j (List.mem_cons_of_mem _ hj) hc hpj (hlt j hj)
          show i + off + 2 ≤ j + off
          omega
    · have hstep : acfPeaksFrom s off prom (i :: is) ps = acfPeaksFrom s off prom is ps := by
        rw [acfPeaksFrom]
        unfold AcfPeak at hc
        rw [if_neg hc]
      rw [hstep, ih _ hpw' hsp' (fun q hq => ⟨(hps q hq).1, fun j hj => (hps q hq).2 j (List.mem_cons_of_mem _ hj)⟩) hb',
        List.filter_cons_of_neg (by simpa using hc)]

theorem tenth : ∃ t ht, (0.1 : F32) = fin t ht ∧ 25 / 256 ≤ t ∧ t ≤ 13 / 128 := by
  have g1 : OnGrid (25 / 256 : ℚ) ∧ |(25 / 256 : ℚ)| < pow2 128 := by decide +kernel
  have g2 : OnGrid (13 / 128 : ℚ) ∧ |(13 / 128 : ℚ)| < pow2 128 := by decide +kernel
  refine between_cases (hlo := g1) (hhi := g2) ?_ ?_
  · exact (by decide +kernel : fin (25 / 256) (by decide +kernel) ≤ (0.1 : F32))
  · exact (by decide +kernel : (0.1 : F32) ≤ fin (13 / 128) (by decide +kernel))

/-! ### From lag range to frames -/

theorem lagLow {x : F32} {n : ℕ} (hn : n ≤ 2 ^ 24) (h : x ≤ F32.ofNat n) : (F32.ceil x).toUsize ≤ n := by
  rw [ofNat_exact hn] at h
  refine toUsize_le (h' := grid_nat hn) ?_
  rcases x with _ | (_ | _) | ⟨v, hv⟩
  · simp at h
  · simp at h
  · exact h
  · have := fin_le_fin.1 h
    refine rnd_le_fin ?_
    exact_mod_cast Int.ceil_le.2 (by exact_mod_cast this)

theorem lagHigh {x : F32} {n : ℕ} (hn : n ≤ 2 ^ 24) (h : F32.ofNat n ≤ x) : n ≤ (F32.floor x).toUsize := by
  rw [ofNat_exact hn] at h
  have husz : n ≤ usizeMax := by unfold usizeMax; omega
  rcases x with _ | (_ | _) | ⟨v, hv⟩
  · simp at h
  · exact husz
  · simp at h
  · have h1 := fin_le_fin.1 h
    have h2 : fin (n : ℚ) (grid_nat hn) ≤ rnd ((⌊v⌋ : ℤ) : ℚ) :=
      fin_le_rnd (by exact_mod_cast Int.le_floor.2 (by exact_mod_cast h1))
    show n ≤ (rnd ((⌊v⌋ : ℤ) : ℚ)).toUsize
    rcases hr : rnd ((⌊v⌋ : ℤ) : ℚ) with _ | (_ | _) | ⟨w, hw⟩
    · rw [hr] at h2; simp at h2
    · exact husz
    · rw [hr] at h2; simp at h2
    · rw [hr] at h2
      have h3 := fin_le_fin.1 h2
      refine Nat.le_min.2 ⟨?_, husz⟩
      have : (n : ℤ) ≤ ⌊w⌋ := Int.le_floor.2 (by exact_mod_cast h3)
      omega

theorem lagBelow {x : F32} {n : ℕ} (hn : n ≤ 2 ^ 24) (h0 : 0 < n) (h : x < F32.ofNat n) : (F32.floor x).toUsize < n := by
  rw [ofNat_exact hn] at h
  rcases x with _ | (_ | _) | ⟨v, hv⟩
  · simp at h
  · simp at h
  · exact h0
  · have h1 := fin_lt_fin.1 h
    have h2 : rnd ((⌊v⌋ : ℤ) : ℚ) ≤ fin ((n - 1 : ℕ) : ℚ) (grid_nat (by omega)) := by
      refine rnd_le_fin ?_
      have : ⌊v⌋ < (n : ℤ) := Int.floor_lt.2 (by exact_mod_cast h1)
      have : ⌊v⌋ ≤ ((n - 1 : ℕ) : ℤ) := by omega
      exact_mod_cast this
    have := toUsize_le h2
    show (rnd ((⌊v⌋ : ℤ) : ℚ)).toUsize < n
    omega

/-! ### One run -/

theorem acf_inv {ifft : List F32 → ℕ → F32} {onsets : List ℕ} {sr hop : ℕ} {minB maxB : F32} {cands : List Cand}
    (h2 : 2 ≤ onsets.length) (hlen : ∀ o ∈ onsets, o / hop + 1 < 2 ^ 31)
    (h : estAutocorr ifft onsets sr hop minB maxB = .ok cands) :
    ∃ sig e lo hi, Flags onsets hop sig ∧ 2 * sig.length ≤ 2 ^ e ∧ (∀ j < e, 2 ^ j < 2 * sig.length) ∧
      lo = (F32.ceil ((60 * F32.ofNat sr) / (maxB * F32.ofNat hop))).toUsize ∧
      hi = (F32.floor ((60 * F32.ofNat sr) / (minB * F32.ofNat hop))).toUsize ∧
      autocorr ifft sig = (List.range sig.length).map (AcfAt ifft sig e) ∧
      (((hi ≤ lo ∨ sig.length ≤ hi) ∧ cands = []) ∨
       (lo < hi ∧ hi < sig.length ∧ ∃ s ps, s.length = hi + 1 - lo ∧ (∀ i < hi + 1 - lo, at' s i = AcfAt ifft sig e (i + lo)) ∧
        acfPeaks s lo = .ok ps ∧ cands = sortDesc Cand.conf (acfCands (autocorr ifft sig) sr hop minB maxB ps))) := by
  have hne : onsets ≠ [] := by rintro rfl; simp at h2
  unfold estAutocorr at h
  rw [if_neg hne] at h
  split_ifs at h with c1 c2 c3 c4
  · omega
  · dsimp only at h
    by_cases c5 : onsets.foldl Nat.max 0 / hop + 1 < 2
    · rw [if_pos c5] at h; cases h
    · rw [if_neg c5] at h
      have hfl := flags_beatSignal (hop := hop) hne
      obtain ⟨om, hom, hsl⟩ := hfl.2.1
      have hslen : (beatSignal onsets hop (onsets.foldl Nat.max 0 / hop + 1)).length < 2 ^ 31 := by
        rw [← hsl]; exact hlen om hom
      obtain ⟨e, he, hee⟩ := nextPow2_spec
        (n := 2 * (beatSignal onsets hop (onsets.foldl Nat.max 0 / hop + 1)).length) (by omega)
      clear hsl
      generalize beatSignal onsets hop (onsets.foldl Nat.max 0 / hop + 1) = sig at hfl hslen he hee h
      refine ⟨sig, e, _, _, hfl, hee.1, hee.2, rfl, rfl, ?_, ?_⟩
      · unfold autocorr
        rw [he]
        rfl
      · generalize (F32.ceil (60 * F32.ofNat sr / (maxB * F32.ofNat hop))).toUsize = lo at h ⊢
        generalize (F32.floor (60 * F32.ofNat sr / (minB * F32.ofNat hop))).toUsize = hi at h ⊢
        rw [autocorr_length] at h
        split_ifs at h with c6
        · left
          refine ⟨?_, (Except.ok.inj h).symm⟩
          omega
        · right
          push Not at c6
          refine ⟨c6.1, c6.2.2, ?_⟩
          rw [slice_ok (by omega) (by rw [autocorr_length]; omega), R.ok_bind] at h
          obtain ⟨ps, eps, h⟩ := R.bind_eq_ok.1 h
          refine ⟨_, ps, ?_, ?_, eps, (Except.ok.inj h).symm⟩
          · rw [List.length_take, List.length_drop, autocorr_length]; omega
          · intro i hi'
            rw [at'_getElem (by rw [List.length_take, List.length_drop, autocorr_length]; omega)]
            simp only [List.getElem_take, List.getElem_drop, autocorr, List.getElem_map, List.getElem_range]
            rw [Nat.add_comm lo i, he]
            rfl

theorem prominence {x l r : ℚ} {hx hl hr} : ∃ w hw, F32.max (fin l hl) (fin r hr) = fin w hw ∧ l ≤ w ∧ r ≤ w ∧ (w = l ∨ w = r) ∧
    fin x hx - F32.max (fin l hl) (fin r hr) = rnd (x - w) := by
  have h1 : fin l hl ≤ F32.max (fin l hl) (fin r hr) := F32.le_max_left (by simp)
  have h2 : fin r hr ≤ F32.max (fin l hl) (fin r hr) := F32.le_max_right (by simp)
  rcases max_eq_left_or_right (fin l hl) (fin r hr) with h | h
  · rw [h] at h1 h2 ⊢
    exact ⟨l, hl, rfl, _root_.le_refl _, fin_le_fin.1 h2, .inl rfl, sub_fin⟩
  · rw [h] at h1 h2 ⊢
    exact ⟨r, hr, rfl, fin_le_fin.1 h1, _root_.le_refl _, .inr rfl, sub_fin⟩

/-- the largest of finitely many nonnegative finite values, one of them positive -/
theorem foldMax_fin {l : List F32} {B : ℚ} (hB : 0 ≤ B) (h : ∀ x ∈ l, ∃ v hv, x = fin v hv ∧ 0 ≤ v ∧ v ≤ B) :
    ∃ μ hμ, F32.foldMax 0 l = fin μ hμ ∧ 0 ≤ μ ∧ μ ≤ B ∧ ∀ v hv, fin v hv ∈ l → v ≤ μ := by
  obtain ⟨h1, h2, h3, h4⟩ := foldMax_spec (l := l) (a := 0) zero_ne_nan
  rcases h4 with h4 | h4
  · refine ⟨0, grid_zero, by rw [h4, zero_def], _root_.le_refl _, hB, fun v hv hm => ?_⟩
    have := h3 _ hm (by simp)
    rw [h4, zero_def] at this
    exact fin_le_fin.1 this
  · obtain ⟨v, hv, e, hv0, hvB⟩ := h _ h4
    refine ⟨v, hv, e, hv0, hvB, fun w hw hm => ?_⟩
    have := h3 _ hm (by simp)
    rw [e] at this
    exact fin_le_fin.1 this

theorem sortDesc_cons_max {α : Type} {key : α → F32} {a : α} {l : List α} (h : ∀ b ∈ l, key b ≤ key a) :
    sortDesc key (a :: l) = a :: sortDesc key l := by
  have hs : sortDesc key (a :: l) = insertBy (fun a b => decide (¬ key a < key b)) a (sortDesc key l) := rfl
  rw [hs]
  rcases he : sortDesc key l with _ | ⟨b, r⟩
  · rfl
  · have hb : b ∈ l := mem_sortDesc.1 (by rw [he]; exact List.mem_cons_self)
    have := not_lt_of_le (h b hb)
    simp [insertBy, this]

/-- **C102, beats that are a whole number of hops (partial).**  A metronome with a beat of `p` hops, two clicks or more, any
starting position, inside the searched tempo range: the first candidate has exactly its tempo and a confidence of at least
0.4, and every other candidate is the tempo of a multiple of its beat, with no higher confidence.  Missing: other beat lengths,
for which `C102_violated` shows that the claim fails. -/
theorem C102_whole_hops_partial (ifft : List F32 → ℕ → F32) (f p hop m sr : ℕ) (hp : 2 ≤ p) (hm : 1 ≤ m) (hh : 0 < hop)
    (hs : 0 < sr) (minB maxB : F32) (hr0 : 0 < minB) (hr : minB < maxB) (hfit : f / hop + m * p + 1 ≤ 2 ^ 24)
    (hacc : AccurateAcf ifft (clicks f (p * hop) (m + 1)) hop)
    (hlo : 60 * F32.ofNat sr / (maxB * F32.ofNat hop) ≤ F32.ofNat (p - 1))
    (hhi : F32.ofNat (p + 1) ≤ 60 * F32.ofNat sr / (minB * F32.ofNat hop))
    (hend : 60 * F32.ofNat sr / (minB * F32.ofNat hop) < F32.ofNat (f / hop + m * p + 1))
    (hin : minB ≤ tempoOf sr hop p ∧ tempoOf sr hop p ≤ maxB) :
    ∃ c rest, estAutocorr ifft (clicks f (p * hop) (m + 1)) sr hop minB maxB = .ok (c :: rest) ∧
      c.bpm = tempoOf sr hop p ∧ 0.4 ≤ c.conf ∧
      ∀ d ∈ rest, d.conf ≤ c.conf ∧ ∃ k, 2 ≤ k ∧ k ≤ m ∧ d.bpm = tempoOf sr hop (k * p) := by
  have hp0 : 0 < p := by omega
  have hpp : p ≤ m * p := Nat.le_mul_of_pos_left p (by omega)
  obtain ⟨F, hF⟩ : ∃ F, f / hop = F := ⟨_, rfl⟩
  rw [hF] at hfit hend
  have hclen : (clicks f (p * hop) (m + 1)).length = m + 1 := by simp [clicks]
  have hfr : ∀ o ∈ clicks f (p * hop) (m + 1), o / hop + 1 < 2 ^ 31 := by
    intro o ho
    obtain ⟨a, ha, e⟩ := (click_frames hh _).1 ⟨o, ho, rfl⟩
    rw [hF] at e
    have := Nat.mul_le_mul_right p (by omega : a ≤ m)
    omega
  obtain ⟨cands, hok⟩ : ∃ cands, estAutocorr ifft (clicks f (p * hop) (m + 1)) sr hop minB maxB = .ok cands := by
    obtain ⟨cands, -, -, h, -⟩ := ((C15_autocorrelation ifft (clicks f (p * hop) (m + 1)) sr hop minB maxB hfr).2 (by
      rintro (h | h | h | h | h | h)
      · rw [h] at hclen; simp at hclen
      · omega
      · omega
      · exact not_le_of_lt hr0 h
      · exact not_le_of_lt (F32.lt_trans hr0 hr) h
      · exact not_le_of_lt hr h)).2 (by
      rintro ⟨-, h⟩
      obtain ⟨o, ho, e⟩ := (click_frames (m := m + 1) (f := f) (p := p) hh _).2 ⟨1, by omega, rfl⟩
      have := h o ho
      rw [hF] at e
      omega)
    exact ⟨cands, h⟩
  obtain ⟨sig, e, lo, hi, hfl, he1, he2, elo, ehi, hacf, hrun⟩ := acf_inv (by omega) hfr hok
  have hlen := flags_length hh hfl
  rw [hF] at hlen
  have hpairs := hacc sig e hfl he1 he2
  have hlo' : lo ≤ p - 1 := by rw [elo]; exact lagLow (by omega) hlo
  have hhi' : p + 1 ≤ hi := by rw [ehi]; exact lagHigh (by omega) hhi
  have hend' : hi < sig.length := by rw [hlen, ehi]; exact lagBelow hfit (by omega) hend
  have hval : ∀ k < sig.length, ∃ w hw, AcfAt ifft sig e k = fin w hw ∧ 0 ≤ w ∧ (pairs sig k : ℚ) - 1 / 20 ≤ w ∧
      w ≤ pairs sig k + 1 / 20 := fun k hk => acf_value (hpairs k hk)
  have hle : ∀ k, pairs sig k ≤ m + 1 := by
    intro k
    by_cases hk : p ∣ k
    · obtain ⟨q, rfl⟩ := hk
      rw [Nat.mul_comm, pairs_mult hh hp0 hfl]; omega
    · rw [pairs_other hh hfl hk]; omega
  have hpos : ∀ k, 0 < k → 1 ≤ pairs sig k → ∃ q, k = q * p ∧ 1 ≤ q ∧ q ≤ m := by
    intro k hk0 h1
    by_cases hk : p ∣ k
    · obtain ⟨q, rfl⟩ := hk
      rw [Nat.mul_comm, pairs_mult hh hp0 hfl] at h1
      refine ⟨q, Nat.mul_comm .., ?_, by omega⟩
      rcases Nat.eq_zero_or_pos q with rfl | h
      · simp at hk0
      · exact h
    · rw [pairs_other hh hfl hk] at h1; omega
  have hn1 : pairs sig p = m := by
    have := pairs_mult (q := 1) hh hp0 hfl
    rw [Nat.one_mul] at this
    omega
  have hn0 : pairs sig 0 = m + 1 := by
    have := pairs_mult (q := 0) hh hp0 hfl
    rw [Nat.zero_mul] at this
    omega
  have hmQ : (1 : ℚ) ≤ m := by exact_mod_cast hm
  rcases hrun with ⟨h, -⟩ | ⟨-, -, s, ps, hsl, hat, hps, hcands⟩
  · omega
  -- the largest value of the searched range
  have hsmem : ∀ x ∈ s, ∃ v hv, x = fin v hv ∧ 0 ≤ v ∧ v ≤ (m : ℚ) + 1 + 1 / 20 := by
    intro x hx
    obtain ⟨i, hi', rfl⟩ := List.getElem_of_mem hx
    obtain ⟨w, hw, e1, h0, -, h1⟩ := hval (i + lo) (by omega)
    refine ⟨w, hw, ?_, h0, ?_⟩
    · rw [← e1, ← hat i (by omega), at'_getElem hi']
    · have : (pairs sig (i + lo) : ℚ) ≤ m + 1 := by exact_mod_cast hle _
      linarith
  obtain ⟨μ, hμ, eμ, hμ0, hμ1, hμm⟩ := foldMax_fin (by linarith) hsmem
  obtain ⟨vp, hvp, evp, hvp0, hvp1, hvp2⟩ := hval p (by omega)
  rw [hn1] at hvp1 hvp2
  have hatp : at' s (p - lo) = fin vp hvp := by
    rw [hat _ (by omega), show p - lo + lo = p by omega, evp]
  have hμp : vp ≤ μ := by
    refine hμm vp hvp ?_
    rw [← hatp, at'_getElem (by omega)]
    exact List.getElem_mem _
  obtain ⟨t, ht, et, ht1, ht2⟩ := tenth
  have hprom : F32.foldMax 0 s * 0.1 = rnd (μ * t) := by rw [eμ, et, mul_fin]
  have hlow : (25 / 256 : ℚ) * (19 / 20) ≤ μ * t := by
    rw [_root_.mul_comm μ t]
    exact _root_.mul_le_mul ht1 (by linarith) (by norm_num) (by linarith)
  have g1 : OnGrid (1 / 16 : ℚ) ∧ |(1 / 16 : ℚ)| < pow2 128 := by decide +kernel
  have g2 : OnGrid (5 / 64 : ℚ) ∧ |(5 / 64 : ℚ)| < pow2 128 := by decide +kernel
  have hpeak : ∀ i, 1 ≤ i → i + 1 < s.length → AcfPeak s (F32.foldMax 0 s * 0.1) i →
      ∃ q, i + lo = q * p ∧ 1 ≤ q ∧ q ≤ m := by
    intro i h1 h2 hpk
    apply hpos _ (by omega)
    by_contra hz
    have hz : pairs sig (i + lo) = 0 := by omega
    obtain ⟨x, hx, ex, hx0, hx1, hx2⟩ := hval (i + lo) (by omega)
    obtain ⟨l, hl, el, hl0, -, -⟩ := hval (i - 1 + lo) (by omega)
    obtain ⟨r, hr', er, hr0', -, -⟩ := hval (i + 1 + lo) (by omega)
    have h3 := hpk.2.2
    rw [hat i (by omega), hat (i - 1) (by omega), hat (i + 1) (by omega), ex, el, er, hprom] at h3
    obtain ⟨w, hw, -, hw1, -, -, ew⟩ := prominence (x := x) (l := l) (r := r) (hx := hx) (hl := hl) (hr := hr')
    rw [ew] at h3
    rw [hz, Nat.cast_zero] at hx2
    have h4 : rnd (x - w) ≤ fin (1 / 16) g1 := rnd_le_fin (by linarith)
    have h5 : fin (5 / 64) g2 ≤ rnd (μ * t) := fin_le_rnd (by linarith)
    have := fin_le_fin.1 (F32.le_trans (F32.le_trans h5 h3) h4)
    norm_num at this
  have hndvd : ∀ k, ¬ p ∣ k → k < sig.length → ∃ w hw, AcfAt ifft sig e k = fin w hw ∧ 0 ≤ w ∧ w ≤ 1 / 20 := by
    intro k hk hkl
    obtain ⟨w, hw, ew, h0, -, h1⟩ := hval k hkl
    rw [pairs_other hh hfl hk, Nat.cast_zero, zero_add] at h1
    exact ⟨w, hw, ew, h0, h1⟩
  have hpk : AcfPeak s (F32.foldMax 0 s * 0.1) (p - lo) := by
    obtain ⟨l, hl, el, hl0, hl1⟩ := hndvd (p - 1) (fun h => by
      have := Nat.le_of_dvd (by omega) h; omega) (by omega)
    obtain ⟨r, hr', er, hr0', hr1⟩ := hndvd (p + 1) (fun h => by
      have := (Nat.dvd_add_right (Nat.dvd_refl p)).1 h
      have := Nat.le_of_dvd (by omega) this; omega) (by omega)
    have el' : at' s (p - lo - 1) = fin l hl := by rw [hat _ (by omega), show p - lo - 1 + lo = p - 1 by omega, el]
    have er' : at' s (p - lo + 1) = fin r hr' := by rw [hat _ (by omega), show p - lo + 1 + lo = p + 1 by omega, er]
    unfold AcfPeak
    rw [hatp, el', er', hprom]
    refine ⟨fin_lt_fin.2 (by linarith), fin_lt_fin.2 (by linarith), ?_⟩
    obtain ⟨w, hw, -, -, -, hwc, ew⟩ := prominence (x := vp) (l := l) (r := r) (hx := hvp) (hl := hl) (hr := hr')
    rw [ew]
    apply rnd_mono
    have hw1 : w ≤ 1 / 20 := by rcases hwc with rfl | rfl <;> assumption
    have : μ * t ≤ ((m : ℚ) + 1 + 1 / 20) * (13 / 128) := _root_.mul_le_mul hμ1 ht2 (by linarith) (by linarith)
    linarith
  -- the list of peaks
  have hsne : s ≠ [] := by rintro rfl; simp at hsl; omega
  have hnE : ¬ F32.foldMax 0 s < EPS := by
    rw [eμ]
    refine not_lt_of_le (F32.le_trans (b := fin (1 / 16) g1) ?_ (fin_le_fin.2 (by linarith)))
    exact (by decide +kernel : EPS ≤ fin (1 / 16) (by decide +kernel))
  have hsparse := acfPeaksFrom_sparse (s := s) (off := lo) (prom := F32.foldMax 0 s * 0.1)
    (List.range' 1 (s.length - 1 - 1)) [] List.pairwise_lt_range' (by
      intro i hi' j hj' hpi hpj hij
      rw [List.mem_range'_1] at hi' hj'
      obtain ⟨a, ea, -⟩ := hpeak i (by omega) (by omega) hpi
      obtain ⟨b, eb, -⟩ := hpeak j (by omega) (by omega) hpj
      have hab : a < b := by
        by_contra hc
        have := Nat.mul_le_mul_right p (Nat.le_of_not_lt hc)
        omega
      have := Nat.mul_le_mul_right p (by omega : a + 1 ≤ b)
      rw [Nat.add_mul] at this
      omega) (by simp) (by
      intro i hi'
      rw [List.mem_range'_1] at hi'
      omega)
  rw [List.nil_append] at hsparse
  unfold acfPeaks at hps
  rw [if_neg hsne] at hps
  dsimp only at hps
  rw [if_neg hnE, hsparse, R.ok_bind] at hps
  have hps := (Except.ok.inj hps).symm
  generalize hL : ((List.range' 1 (s.length - 1 - 1)).filter
    (fun i => decide (AcfPeak s (F32.foldMax 0 s * 0.1) i))).map (fun i => (i + lo, at' s i)) = L at hps
  have hLnd : L.Nodup := by
    rw [← hL]
    refine List.Nodup.map (fun a b h => by simpa using congrArg Prod.fst h) ?_
    exact List.Nodup.filter _ List.nodup_range'
  have hLmem : ∀ q ∈ L, ∃ k, 1 ≤ k ∧ k ≤ m ∧ q = (k * p, AcfAt ifft sig e (k * p)) ∧ k * p < sig.length := by
    intro q hq
    rw [← hL] at hq
    obtain ⟨i, hi', rfl⟩ := List.mem_map.1 hq
    obtain ⟨hi1, hi2⟩ := List.mem_filter.1 hi'
    rw [List.mem_range'_1] at hi1
    obtain ⟨k, ek, h1, h2⟩ := hpeak i (by omega) (by omega) (of_decide_eq_true hi2)
    refine ⟨k, h1, h2, ?_, by omega⟩
    rw [hat i (by omega), ek]
  have hLp : (p, fin vp hvp) ∈ L := by
    rw [← hL]
    refine List.mem_map.2 ⟨p - lo, List.mem_filter.2 ⟨?_, decide_eq_true hpk⟩, ?_⟩
    · rw [List.mem_range'_1]; omega
    · rw [hatp, show p - lo + lo = p by omega]
  have hLval : ∀ q ∈ L, ∃ v hv, q.2 = fin v hv ∧ 0 ≤ v ∧ (q ≠ (p, fin vp hvp) → v < vp) := by
    intro q hq
    obtain ⟨k, h1, h2, rfl, hk⟩ := hLmem q hq
    obtain ⟨v, hv, ev, hv0, hv1, hv2⟩ := hval _ hk
    refine ⟨v, hv, ev, hv0, fun hne => ?_⟩
    rw [pairs_mult hh hp0 hfl] at hv2
    have hk2 : 2 ≤ k := by
      by_contra hc
      have : k = 1 := by omega
      subst this
      apply hne
      rw [Nat.one_mul, evp]
    have : ((m + 1 - k : ℕ) : ℚ) ≤ m - 1 := by
      have h3 : m + 1 - k + 1 ≤ m := by omega
      have : ((m + 1 - k : ℕ) : ℚ) + 1 ≤ m := by exact_mod_cast h3
      linarith
    linarith
  have hLn : ∀ q ∈ L, q.2 ≠ nan := by
    intro q hq
    obtain ⟨v, hv, ev, -⟩ := hLval q hq
    rw [ev]; simp
  obtain ⟨a, rest, ea⟩ : ∃ a rest, ps = a :: rest := by
    rcases hc : ps with _ | ⟨a, rest⟩
    · have := (mem_sortDesc (key := Prod.snd)).2 hLp
      rw [hps] at hc
      rw [hc] at this
      simp at this
    · exact ⟨a, rest, rfl⟩
  have hpsL : ∀ q, q ∈ ps ↔ q ∈ L := fun q => by rw [hps]; exact mem_sortDesc
  have hpw : ps.Pairwise (fun a b => b.2 ≤ a.2) := by rw [hps]; exact sortDesc_pairwise hLn
  have hnd : ps.Nodup := by rw [hps]; exact (sortDesc_perm L).nodup_iff.2 hLnd
  rw [ea] at hpsL hpw hnd
  have hap : a = (p, fin vp hvp) := by
    by_contra hne
    obtain ⟨v, hv, ev, -, hlt⟩ := hLval a ((hpsL a).1 List.mem_cons_self)
    rcases List.mem_cons.1 ((hpsL _).2 hLp) with h | h
    · exact hne h.symm
    · have := (List.pairwise_cons.1 hpw).1 _ h
      rw [ev] at this
      have h1 := fin_le_fin.1 this
      have h2 := hlt hne
      linarith
  -- confidences
  have hamem : ∀ x ∈ autocorr ifft sig, ∃ v hv, x = fin v hv ∧ 0 ≤ v ∧ v ≤ (m : ℚ) + 1 + 1 / 20 := by
    intro x hx
    rw [hacf] at hx
    obtain ⟨k, hk, rfl⟩ := List.mem_map.1 hx
    obtain ⟨w, hw, e1, h0, -, h1⟩ := hval k (List.mem_range.1 hk)
    refine ⟨w, hw, e1, h0, ?_⟩
    have : (pairs sig k : ℚ) ≤ m + 1 := by exact_mod_cast hle _
    linarith
  obtain ⟨ν, hν, eν, hν0, hν1, hνm⟩ := foldMax_fin (by linarith) hamem
  obtain ⟨v0, hv0, ev0, -, hv01, -⟩ := hval 0 (by omega)
  rw [hn0] at hv01
  push_cast at hv01
  have hν2 : (19 / 20 : ℚ) + 1 ≤ ν := by
    have := hνm v0 hv0 (by
      rw [hacf, ← ev0]
      exact List.mem_map.2 ⟨0, List.mem_range.2 (by omega), rfl⟩)
    linarith
  have hEν : EPS < F32.foldMax 0 (autocorr ifft sig) := by
    rw [eν]
    refine F32.lt_of_lt_of_le (b := fin (1 / 16) g1) ?_ (fin_le_fin.2 (by linarith))
    exact (by decide +kernel : EPS < fin (1 / 16) (by decide +kernel))
  have hcons : acfCands (autocorr ifft sig) sr hop minB maxB ps =
      ⟨tempoOf sr hop p, F32.min (fin vp hvp / fin ν hν) 1⟩ :: acfCands (autocorr ifft sig) sr hop minB maxB rest := by
    rw [ea, hap]
    unfold acfCands
    rw [List.filterMap_cons_some]
    have hin' := hin
    unfold tempoOf at hin'
    dsimp only
    rw [if_pos hin', if_pos hEν, eν]
    rfl
  have hνne : ν ≠ 0 := by intro h; rw [h] at hν2; norm_num at hν2
  have hνpos : 0 < ν := by linarith
  have hrest : ∀ d ∈ acfCands (autocorr ifft sig) sr hop minB maxB rest,
      d.conf ≤ F32.min (fin vp hvp / fin ν hν) 1 ∧ ∃ k, 2 ≤ k ∧ k ≤ m ∧ d.bpm = tempoOf sr hop (k * p) := by
    intro d hd
    obtain ⟨q, hq, hqd⟩ := List.mem_filterMap.1 hd
    dsimp only at hqd
    rw [if_pos hEν, eν] at hqd
    split_ifs at hqd with hb
    have hqd := (Option.some.inj hqd).symm
    have hqL := (hpsL q).1 (List.mem_cons_of_mem _ hq)
    have hqa : q ≠ (p, fin vp hvp) := by
      rintro rfl
      rw [hap] at hnd
      exact (List.nodup_cons.1 hnd).1 hq
    obtain ⟨v, hv, ev, hv0, hlt⟩ := hLval q hqL
    obtain ⟨k, hk1, hk2, eq, -⟩ := hLmem q hqL
    rw [hqd]
    constructor
    · show F32.min (q.2 / fin ν hν) 1 ≤ _
      rw [ev, div_fin hνne, div_fin hνne]
      refine F32.le_min (F32.le_trans (F32.min_le_left (by simp)) (rnd_mono ?_)) (F32.min_le_right one_ne_nan)
      exact _root_.div_le_div_of_nonneg_right (_root_.le_of_lt (hlt hqa)) (_root_.le_of_lt hνpos)
    · refine ⟨k, ?_, hk2, by rw [eq]; rfl⟩
      by_contra hc
      have : k = 1 := by omega
      subst this
      apply hqa
      rw [eq, Nat.one_mul, evp]
  refine ⟨⟨tempoOf sr hop p, F32.min (fin vp hvp / fin ν hν) 1⟩, sortDesc Cand.conf (acfCands (autocorr ifft sig) sr hop minB maxB rest),
    ?_, rfl, ?_, ?_⟩
  · rw [hok, hcands, hcons, sortDesc_cons_max (fun b hb => (hrest b hb).1)]
  · refine F32.le_min ?_ (by decide +kernel)
    rw [div_fin hνne]
    have g3 : OnGrid (7 / 16 : ℚ) ∧ |(7 / 16 : ℚ)| < pow2 128 := by decide +kernel
    refine F32.le_trans (b := fin (7 / 16) g3) (by exact (by decide +kernel : (0.4 : F32) ≤ fin (7 / 16) (by decide +kernel))) (fin_le_rnd ?_)
    rw [_root_.le_div_iff₀ hνpos]
    linarith
  · intro d hd
    exact hrest d (mem_sortDesc.1 hd)

/-! ### Beats of a whole number of hops and a half -/

theorem digit_unique {N a b r t : ℕ} (hr : r < N) (ht : t < N) (h : a * N + r = b * N + t) : a = b ∧ r = t := by
  have h1 : (a * N + r) % N = r := by rw [Nat.mul_comm, Nat.mul_add_mod, Nat.mod_eq_of_lt hr]
  have h2 : (b * N + t) % N = t := by rw [Nat.mul_comm, Nat.mul_add_mod, Nat.mod_eq_of_lt ht]
  have e : r = t := by rw [← h1, ← h2, h]
  subst e
  exact ⟨Nat.eq_of_mul_eq_mul_right (by omega) (Nat.add_right_cancel h), rfl⟩

theorem half_frames {f p h j : ℕ} (hh : 0 < h) (hf : f % (2 * h) < h) (i : ℕ) :
    (∃ o ∈ clicks f (p * (2 * h) + h) (2 * j + 1), o / (2 * h) = i) ↔
      (∃ a ≤ j, f / (2 * h) + a * (2 * p + 1) = i) ∨ ∃ a < j, f / (2 * h) + a * (2 * p + 1) + p = i := by
  have hfd := Nat.div_add_mod f (2 * h)
  have even : ∀ a, (f + 2 * a * (p * (2 * h) + h)) / (2 * h) = f / (2 * h) + a * (2 * p + 1) := by
    intro a
    have : f + 2 * a * (p * (2 * h) + h) = f + a * (2 * p + 1) * (2 * h) := by ring
    rw [this, Nat.add_mul_div_right _ _ (by omega)]
  have odd : ∀ a, (f + (2 * a + 1) * (p * (2 * h) + h)) / (2 * h) = f / (2 * h) + a * (2 * p + 1) + p := by
    intro a
    have : f + (2 * a + 1) * (p * (2 * h) + h) = f + h + (a * (2 * p + 1) + p) * (2 * h) := by ring
    rw [this, Nat.add_mul_div_right _ _ (by omega)]
    have : (f + h) / (2 * h) = f / (2 * h) := by
      have e : f + h = (f % (2 * h) + h) + (f / (2 * h)) * (2 * h) := by
        rw [Nat.mul_comm (f / (2 * h))]; omega
      rw [e, Nat.add_mul_div_right _ _ (by omega), Nat.div_eq_of_lt (by omega), Nat.zero_add]
    rw [this, Nat.add_assoc]
  constructor
  · rintro ⟨o, ho, rfl⟩
    obtain ⟨b, hb, rfl⟩ := mem_clicks.1 ho
    rcases Nat.even_or_odd' b with ⟨a, rfl | rfl⟩
    · exact .inl ⟨a, by omega, (even a).symm⟩
    · exact .inr ⟨a, by omega, (odd a).symm⟩
  · rintro (⟨a, ha, rfl⟩ | ⟨a, ha, rfl⟩)
    · exact ⟨_, mem_clicks.2 ⟨2 * a, by omega, rfl⟩, even a⟩
    · exact ⟨_, mem_clicks.2 ⟨2 * a + 1, by omega, rfl⟩, odd a⟩

/-- pairs of clicks at most `2 p` frames apart: a click and the next one -/
theorem half_near {F p j k i : ℕ} (hk : 0 < k) (hk' : k ≤ 2 * p) :
    (((∃ a ≤ j, F + a * (2 * p + 1) = i) ∨ ∃ a < j, F + a * (2 * p + 1) + p = i) ∧
      ((∃ a ≤ j, F + a * (2 * p + 1) = i + k) ∨ ∃ a < j, F + a * (2 * p + 1) + p = i + k)) ↔
    ((k = p ∧ ∃ a < j, F + a * (2 * p + 1) = i) ∨ (k = p + 1 ∧ ∃ a < j, F + a * (2 * p + 1) + p = i)) := by
  constructor
  · rintro ⟨⟨a, ha, rfl⟩ | ⟨a, ha, rfl⟩, ⟨b, hb, e⟩ | ⟨b, hb, e⟩⟩
    · have := (digit_unique (N := 2 * p + 1) (a := b) (r := 0) (b := a) (t := k) (by omega) (by omega) (by omega)).2
      omega
    · obtain ⟨h1, h2⟩ := digit_unique (N := 2 * p + 1) (a := b) (r := p) (b := a) (t := k) (by omega) (by omega) (by omega)
      exact .inl ⟨h2.symm, a, by omega, rfl⟩
    · rcases Nat.lt_or_ge (p + k) (2 * p + 1) with hlt | hge
      · have := (digit_unique (N := 2 * p + 1) (a := b) (r := 0) (b := a) (t := p + k) (by omega) (by omega) (by omega)).2
        omega
      · have := (digit_unique (N := 2 * p + 1) (a := b) (r := 0) (b := a + 1) (t := p + k - (2 * p + 1)) (by omega) (by omega)
          (by rw [Nat.add_mul]; omega)).2
        exact .inr ⟨by omega, a, ha, rfl⟩
    · rcases Nat.lt_or_ge (p + k) (2 * p + 1) with hlt | hge
      · have := (digit_unique (N := 2 * p + 1) (a := b) (r := p) (b := a) (t := p + k) (by omega) (by omega) (by omega)).2
        omega
      · have := (digit_unique (N := 2 * p + 1) (a := b) (r := p) (b := a + 1) (t := p + k - (2 * p + 1)) (by omega) (by omega)
          (by rw [Nat.add_mul]; omega)).2
        omega
  · rintro (⟨rfl, a, ha, rfl⟩ | ⟨rfl, a, ha, rfl⟩)
    · exact ⟨.inl ⟨a, by omega, rfl⟩, .inr ⟨a, ha, rfl⟩⟩
    · exact ⟨.inr ⟨a, ha, rfl⟩, .inl ⟨a + 1, by omega, by rw [Nat.add_mul]; omega⟩⟩

theorem half_pairs {f p h j k : ℕ} {sig : List F32} (hh : 0 < h) (hf : f % (2 * h) < h)
    (hfl : Flags (clicks f (p * (2 * h) + h) (2 * j + 1)) (2 * h) sig) (hk : 0 < k) (hk' : k ≤ 2 * p) :
    pairs sig k = if k = p ∨ k = p + 1 then j else 0 := by
  have hset := fun i => half_frames (p := p) (j := j) hh hf i
  by_cases h1 : k = p
  · rw [if_pos (.inl h1)]
    refine pairs_of hfl k j (fun a => f / (2 * h) + a * (2 * p + 1))
      (fun a b e => Nat.eq_of_mul_eq_mul_right (by omega) (Nat.add_left_cancel e)) fun i => ?_
    rw [hset, hset, half_near hk hk']
    constructor
    · rintro (⟨-, h⟩ | ⟨h, -⟩)
      · exact h
      · omega
    · exact fun h => .inl ⟨h1, h⟩
  · by_cases h2 : k = p + 1
    · rw [if_pos (.inr h2)]
      refine pairs_of hfl k j (fun a => f / (2 * h) + a * (2 * p + 1) + p)
        (fun a b e => Nat.eq_of_mul_eq_mul_right (by omega) (Nat.add_left_cancel (Nat.add_right_cancel e))) fun i => ?_
      rw [hset, hset, half_near hk hk']
      constructor
      · rintro (⟨h, -⟩ | ⟨-, h⟩)
        · omega
        · exact h
      · exact fun h => .inr ⟨h2, h⟩
    · rw [if_neg (by omega)]
      refine pairs_of hfl k 0 id (fun a b e => e) fun i => ?_
      rw [hset, hset, half_near hk hk']
      constructor
      · rintro (⟨h, -⟩ | ⟨h, -⟩) <;> omega
      · rintro ⟨a, ha, -⟩; omega

/-- longer beats are slower tempos, rounding included -/
theorem tempoOf_anti {sr hop a b : ℕ} (hs : sr ≤ 2 ^ 32) (hh : 0 < hop) (hh' : hop ≤ 2 ^ 24) (ha : 0 < a) (hab : a ≤ b)
    (hb : b ≤ 2 ^ 24) : tempoOf sr hop b ≤ tempoOf sr hop a := by
  have g32 : OnGrid ((2 : ℚ) ^ 32) ∧ |(2 : ℚ) ^ 32| < pow2 128 := by decide +kernel
  have g38 : OnGrid ((2 : ℚ) ^ 38) ∧ |(2 : ℚ) ^ 38| < pow2 128 := by decide +kernel
  have g48 : OnGrid ((2 : ℚ) ^ 48) ∧ |(2 : ℚ) ^ 48| < pow2 128 := by decide +kernel
  have hsr : (sr : ℚ) ≤ 2 ^ 32 := by exact_mod_cast hs
  obtain ⟨x, hx, ex, hx0⟩ : ∃ x hx, 60 * F32.ofNat sr = fin x hx ∧ 0 ≤ x := by
    obtain ⟨y, hy, ey, hy0, hy1⟩ := between_cases (a := F32.ofNat sr) (hlo := grid_zero) (hhi := g32)
      (by rw [← zero_def]; exact ofNat_nonneg _) (rnd_le_fin hsr)
    have e60 : (60 : F32) = fin 60 (by simpa using grid_nat (n := 60) (by norm_num)) := by
      rw [ofNat_lit, ← rnd_val]
      norm_num
    rw [ey, e60, mul_fin]
    obtain ⟨z, hz, ez, hz0, -⟩ := between_cases (a := rnd (60 * y)) (hlo := grid_zero) (hhi := g38)
      (by rw [← zero_def]; exact rnd_nonneg (by linarith)) (rnd_le_fin (by linarith))
    exact ⟨z, hz, ez, hz0⟩
  have hopQ : (1 : ℚ) ≤ hop := by exact_mod_cast hh
  have hopQ' : (hop : ℚ) ≤ 2 ^ 24 := by exact_mod_cast hh'
  have den : ∀ c : ℕ, 0 < c → c ≤ 2 ^ 24 → ∃ y hy, F32.ofNat c * F32.ofNat hop = fin y hy ∧ 1 ≤ y := by
    intro c hc hc'
    have h1 : (1 : ℚ) ≤ c := by exact_mod_cast hc
    have h2 : (c : ℚ) ≤ 2 ^ 24 := by exact_mod_cast hc'
    rw [ofNat_exact hc', ofNat_exact hh', mul_fin]
    obtain ⟨y, hy, ey, hy0, -⟩ := between_cases (a := rnd ((c : ℚ) * hop)) (hlo := grid_one) (hhi := g48)
      (fin_le_rnd (by nlinarith)) (rnd_le_fin (by nlinarith))
    exact ⟨y, hy, ey, hy0⟩
  obtain ⟨ya, hya, ea, ha1⟩ := den a ha (by omega)
  obtain ⟨yb, hyb, eb, hb1⟩ := den b (by omega) hb
  have hyab : ya ≤ yb := by
    have : F32.ofNat a * F32.ofNat hop ≤ F32.ofNat b * F32.ofNat hop := by
      rw [ofNat_exact (by omega : a ≤ 2 ^ 24), ofNat_exact hb, ofNat_exact hh', mul_fin, mul_fin]
      apply rnd_mono
      exact _root_.mul_le_mul_of_nonneg_right (by exact_mod_cast hab) (by linarith)
    rw [ea, eb] at this
    exact fin_le_fin.1 this
  unfold tempoOf
  rw [ea, eb, ex, div_fin (by linarith), div_fin (by linarith)]
  exact rnd_mono (_root_.div_le_div_of_nonneg_left hx0 (by linarith) hyab)

/-- **C102 violated.**  A metronome whose beat is `p` hops and a half (at any of the starting positions in the first half of
a frame), with an odd number of at least five clicks, and whose tempo the search range contains: every candidate takes two
beats or more for one, so the tempo found is at most half the tempo of the metronome. -/
theorem C102_violated (ifft : List F32 → ℕ → F32) (f p h j sr : ℕ) (hp : 1 ≤ p) (hj : 2 ≤ j) (hh : 0 < h)
    (hh' : 2 * h ≤ 2 ^ 24) (hs : sr ≤ 2 ^ 32) (hf : f % (2 * h) < h) (minB maxB : F32) (hfit : f / (2 * h) + j * (2 * p + 1) + 1 ≤ 2 ^ 24)
    (hacc : AccurateAcf ifft (clicks f (p * (2 * h) + h) (2 * j + 1)) (2 * h))
    (hlo : 60 * F32.ofNat sr / (maxB * F32.ofNat (2 * h)) ≤ F32.ofNat p)
    (hhi : F32.ofNat (p + 1) ≤ 60 * F32.ofNat sr / (minB * F32.ofNat (2 * h))) (cands : List Cand)
    (hok : estAutocorr ifft (clicks f (p * (2 * h) + h) (2 * j + 1)) sr (2 * h) minB maxB = .ok cands) :
    ∀ c ∈ cands, c.bpm ≤ tempoOf sr (2 * h) (2 * p + 1) := by
  obtain ⟨F, hF⟩ : ∃ F, f / (2 * h) = F := ⟨_, rfl⟩
  rw [hF] at hfit
  have hpj : p ≤ j * (2 * p + 1) := by
    have := Nat.le_mul_of_pos_left (2 * p + 1) (by omega : 0 < j)
    omega
  have hfr24 : ∀ o ∈ clicks f (p * (2 * h) + h) (2 * j + 1), o / (2 * h) + 1 ≤ 2 ^ 24 := by
    intro o ho
    rcases (half_frames hh hf _).1 ⟨o, ho, rfl⟩ with ⟨a, ha, e⟩ | ⟨a, ha, e⟩
    · rw [hF] at e
      have := Nat.mul_le_mul_right (2 * p + 1) ha
      omega
    · rw [hF] at e
      have := Nat.mul_le_mul_right (2 * p + 1) (by omega : a + 1 ≤ j)
      rw [Nat.add_mul] at this
      omega
  have hfr : ∀ o ∈ clicks f (p * (2 * h) + h) (2 * j + 1), o / (2 * h) + 1 < 2 ^ 31 := fun o ho => by
    have := hfr24 o ho
    omega
  obtain ⟨sig, e, lo, hi, hfl, he1, he2, elo, ehi, hacf, hrun⟩ := acf_inv (by simp [clicks]; omega) hfr hok
  have hpairs := hacc sig e hfl he1 he2
  have hlo' : lo ≤ p := by rw [elo]; exact lagLow (by omega) hlo
  have hhi' : p + 1 ≤ hi := by rw [ehi]; exact lagHigh (by omega) hhi
  rcases hrun with ⟨-, rfl⟩ | ⟨-, hend', s, ps, hsl, hat, hps, hcands⟩
  · simp
  have hval : ∀ k < sig.length, ∃ w hw, AcfAt ifft sig e k = fin w hw ∧ 0 ≤ w ∧ (pairs sig k : ℚ) - 1 / 20 ≤ w ∧
      w ≤ pairs sig k + 1 / 20 := fun k hk => acf_value (hpairs k hk)
  have hjQ : (2 : ℚ) ≤ j := by exact_mod_cast hj
  -- the largest value of the searched range
  obtain ⟨M1, M2, M3, M4⟩ := foldMax_spec (l := s) (a := 0) zero_ne_nan
  have hnp : pairs sig p = j := by rw [half_pairs hh hf hfl (by omega) (by omega), if_pos (.inl rfl)]
  have hnp1 : pairs sig (p + 1) = j := by rw [half_pairs hh hf hfl (by omega) (by omega), if_pos (.inr rfl)]
  obtain ⟨vp, hvp, evp, -, hvp1, hvp2⟩ := hval p (by omega)
  rw [hnp] at hvp1 hvp2
  have hatp : at' s (p - lo) = fin vp hvp := by
    rw [hat _ (by omega), show p - lo + lo = p by omega, evp]
  have hpM : fin vp hvp ≤ F32.foldMax 0 s := by
    refine M3 _ ?_ (by simp)
    rw [← hatp, at'_getElem (by omega)]
    exact List.getElem_mem _
  obtain ⟨μ, hμ, eμ⟩ : ∃ μ hμ, F32.foldMax 0 s = fin μ hμ := by
    rcases M4 with h4 | h4
    · exact ⟨0, grid_zero, by rw [h4, zero_def]⟩
    · obtain ⟨i, hi', ei⟩ := List.getElem_of_mem h4
      obtain ⟨w, hw, ew, -⟩ := hval (i + lo) (by omega)
      exact ⟨w, hw, by rw [← ei, ← at'_getElem hi', hat i (by omega), ew]⟩
  rw [eμ] at hpM
  have hμp := fin_le_fin.1 hpM
  obtain ⟨t, ht, et, ht1, ht2⟩ := tenth
  have hprom : F32.foldMax 0 s * 0.1 = rnd (μ * t) := by rw [eμ, et, mul_fin]
  have hlow : (25 / 256 : ℚ) * (39 / 20) ≤ μ * t := by
    rw [_root_.mul_comm μ t]
    exact _root_.mul_le_mul ht1 (by linarith) (by norm_num) (by linarith)
  have g1 : OnGrid (1 / 8 : ℚ) ∧ |(1 / 8 : ℚ)| < pow2 128 := by decide +kernel
  have g2 : OnGrid (3 / 16 : ℚ) ∧ |(3 / 16 : ℚ)| < pow2 128 := by decide +kernel
  have hpeak : ∀ i, 1 ≤ i → i + 1 < s.length → AcfPeak s (F32.foldMax 0 s * 0.1) i → 2 * p + 1 ≤ i + lo := by
    intro i h1 h2 hpk
    by_contra hc
    obtain ⟨x, hx, ex, hx0, hx1, hx2⟩ := hval (i + lo) (by omega)
    obtain ⟨l, hl, el, hl0, hl1, -⟩ := hval (i - 1 + lo) (by omega)
    obtain ⟨r, hr', er, hr0', hr1, -⟩ := hval (i + 1 + lo) (by omega)
    have h3 := hpk.2.2
    rw [hat i (by omega), hat (i - 1) (by omega), hat (i + 1) (by omega), ex, el, er, hprom] at h3
    obtain ⟨w, hw, -, hw1, hw2, -, ew⟩ := prominence (x := x) (l := l) (r := r) (hx := hx) (hl := hl) (hr := hr')
    rw [ew] at h3
    have hsmall : x - w ≤ 1 / 8 := by
      have hn := half_pairs (k := i + lo) hh hf hfl (by omega) (by omega)
      by_cases ca : i + lo = p
      · rw [ca, hnp] at hx2
        rw [show i + 1 + lo = p + 1 by omega, hnp1] at hr1
        linarith
      · by_cases cb : i + lo = p + 1
        · rw [cb, hnp1] at hx2
          rw [show i - 1 + lo = p by omega, hnp] at hl1
          linarith
        · rw [if_neg (by omega)] at hn
          rw [hn, Nat.cast_zero] at hx2
          linarith
    have h4 : rnd (x - w) ≤ fin (1 / 8) g1 := rnd_le_fin hsmall
    have h5 : fin (3 / 16) g2 ≤ rnd (μ * t) := fin_le_rnd (by linarith)
    have := fin_le_fin.1 (F32.le_trans (F32.le_trans h5 h3) h4)
    norm_num at this
  have hslen : sig.length ≤ 2 ^ 24 := by
    obtain ⟨o, ho, eo⟩ := hfl.2.1
    have := hfr24 o ho
    omega
  have hpsl : ∀ q ∈ ps, 2 * p + 1 ≤ q.1 ∧ q.1 ≤ 2 ^ 24 := by
    intro q hq
    unfold acfPeaks at hps
    split_ifs at hps with c1
    · rw [← Except.ok.inj hps] at hq; simp at hq
    · dsimp only at hps
      by_cases c2 : F32.foldMax 0 s < EPS
      · rw [if_pos c2] at hps
        rw [← Except.ok.inj hps] at hq; simp at hq
      · rw [if_neg c2] at hps
        obtain ⟨ps0, hps0, hps⟩ := R.bind_eq_ok.1 hps
        rw [← Except.ok.inj hps] at hq
        rcases acfPeaksFrom_sound _ _ _ hps0 q (mem_sortDesc.1 hq) with h0 | ⟨i, hi', hpk, rfl⟩
        · simp at h0
        · rw [List.mem_range'_1] at hi'
          exact ⟨hpeak i (by omega) (by omega) hpk, by show i + lo ≤ _; omega⟩
  intro c hc
  rw [hcands] at hc
  obtain ⟨q, hq, hqc⟩ := List.mem_filterMap.1 (mem_sortDesc.1 hc)
  dsimp only at hqc
  split_ifs at hqc <;>
  · rw [← Option.some.inj hqc]
    exact tempoOf_anti hs (by omega) hh' (by omega) (hpsl q hq).1 (hpsl q hq).2

/-! ### The hypotheses can be met -/

/-- the unscaled inverse transform in exact arithmetic -/
def idealIfft (sig : List F32) (k : ℕ) : F32 := F32.ofNat (pairs sig k) * F32.ofNat (nextPow2 (2 * sig.length))

theorem pairs_le (sig : List F32) (k : ℕ) : pairs sig k ≤ sig.length := by
  unfold pairs
  exact Nat.le_trans (Finset.card_filter_le _ _) (by rw [Finset.card_range])

theorem ideal_accurate {onsets : List ℕ} {hop : ℕ} (h : ∀ o ∈ onsets, o / hop + 1 ≤ 2 ^ 24) : AccurateAcf idealIfft onsets hop := by
  intro sig e hfl h1 h2 k hk
  obtain ⟨o, ho, eo⟩ := hfl.2.1
  have hlen : sig.length ≤ 2 ^ 24 := by rw [← eo]; exact h o ho
  have hn : pairs sig k ≤ 2 ^ 24 := Nat.le_trans (pairs_le sig k) hlen
  obtain ⟨e', he', h1', h2'⟩ := nextPow2_spec (n := 2 * sig.length) (by omega)
  have hee : e' = e := by
    rcases Nat.lt_trichotomy e' e with hlt | heq | hgt
    · have := h2 e' hlt; omega
    · exact heq
    · have := h2' e hgt; omega
  rw [hee] at he'
  clear hee h1' h2'
  have he : e ≤ 25 := by
    by_contra hc
    have := h2 25 (by omega)
    omega
  have hP : F32.ofNat (2 ^ e) = fin (pow2 e) ⟨onGrid_pow2 (by omega), by
      rw [abs_of_pos (pow2_pos _)]; exact pow2_lt (by omega)⟩ := by
    unfold F32.ofNat
    rw [← rnd_val, pow2_nat, Nat.cast_pow, Nat.cast_ofNat]
  have hinv : 1 / F32.ofNat (2 ^ e) = fin (pow2 (-e)) ⟨onGrid_pow2 (by omega), by
      rw [abs_of_pos (pow2_pos _)]; exact pow2_lt (by omega)⟩ := by
    rw [hP, one_def, div_fin (ne_of_gt (pow2_pos _)), ← rnd_val]
    congr 1
    rw [pow2_eq, pow2_eq, zpow_neg, one_div]
  have hprod : idealIfft sig k = fin (pairs sig k * pow2 e) ⟨by
      have := grid_scale (onGrid_nat hn) (k := e) (by omega)
      rwa [_root_.mul_comm] at this, by
      rw [abs_of_nonneg (_root_.mul_nonneg (Nat.cast_nonneg _) (_root_.le_of_lt (pow2_pos _)))]
      calc (pairs sig k : ℚ) * pow2 e ≤ pow2 24 * pow2 e := by
            refine _root_.mul_le_mul_of_nonneg_right ?_ (_root_.le_of_lt (pow2_pos _))
            rw [show (24 : ℤ) = ((24 : ℕ) : ℤ) from rfl, pow2_nat]
            exact_mod_cast hn
        _ = pow2 (24 + e) := (pow2_add _ _).symm
        _ < pow2 128 := pow2_lt (by omega)⟩ := by
    unfold idealIfft
    rw [he', hP, ofNat_exact hn, mul_fin, ← rnd_val]
  refine ⟨pairs sig k, grid_nat hn, ?_, by simp⟩
  rw [hprod, hinv, mul_fin, ← rnd_val]
  congr 1
  rw [_root_.mul_assoc, ← pow2_add]
  simp [pow2_eq]

-- 44.1 kHz, hop 512, beats of 43 hops (120.2 BPM), nine of them: all hypotheses hold
example : ∃ c rest, estAutocorr idealIfft (clicks 1000 (43 * 512) 9) 44100 512 40 240 = .ok (c :: rest) ∧
    c.bpm = tempoOf 44100 512 43 ∧ 120 < c.bpm ∧ c.bpm < 120.2 := by
  obtain ⟨c, rest, h1, h2, -⟩ := C102_whole_hops_partial idealIfft 1000 43 512 8 44100 (by omega) (by omega) (by omega) (by omega)
    40 240 (by decide +kernel) (by decide +kernel) (by decide) (ideal_accurate (by
      intro o ho
      obtain ⟨i, hi, rfl⟩ := mem_clicks.1 ho
      omega)) (by decide +kernel) (by decide +kernel) (by decide +kernel) ⟨by decide +kernel, by decide +kernel⟩
  exact ⟨c, rest, h1, h2, by rw [h2]; decide +kernel, by rw [h2]; decide +kernel⟩

-- the same with beats of 43 hops and a half (118.8 BPM): every candidate is below 60 BPM
example (cands : List Cand)
    (h : estAutocorr idealIfft (clicks 1100 (43 * (2 * 256) + 256) (2 * 4 + 1)) 44100 (2 * 256) 40 240 = .ok cands) :
    ∀ c ∈ cands, c.bpm < 60 := by
  intro c hc
  refine F32.lt_of_le_of_lt (C102_violated idealIfft 1100 43 256 4 44100 (by omega) (by omega) (by omega) (by omega) (by omega)
    (by decide) 40 240 (by decide)
    (ideal_accurate (by
      intro o ho
      obtain ⟨i, hi, rfl⟩ := mem_clicks.1 ho
      omega)) (by decide +kernel) (by decide +kernel) cands h c hc) (by decide +kernel)

end Verif.Props
