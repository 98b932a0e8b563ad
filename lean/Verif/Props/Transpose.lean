import Verif.Props.KeyDetect
import Verif.Props.KeyTemplates
import Verif.Props.KeyVariants
import Verif.Props.NormLimits

/-! Property theorems for claim C108: transposing the chroma transposes the key. -/

namespace Verif.Props

open Verif Verif.Keys Verif.KeyDet F32

/-! ### specification -/

/-- the key `k` semitones higher -/
def keyUp (k : ℕ) : Key → Key
  | .major i => .major ((i + k) % 12)
  | .minor i => .minor ((i + k) % 12)

/-- inner product in exact arithmetic -/
def exactDot (c t : List F32) : ℚ := (List.zipWith (fun x y => x.val * y.val) c t).sum

/-- the (weighted) sum of inner products in exact arithmetic -/
def exactScore (chroma : List (List F32)) : Option (List F32) → List F32 → ℚ
  | none, t => (chroma.map (fun c => exactDot c t)).sum
  | some w, t => ((chroma.zip w).map (fun p => p.2.val * exactDot p.1 t)).sum

/-! ### rounding of sums -/

theorem err_pow (q : ℚ) : |rndQ q - q| ≤ |q| / 2 ^ 24 + 1 / 2 ^ 150 := by
  have h := rndQ_err_any q
  have e24 : pow2 (-24) = 1 / 2 ^ 24 := by rw [pow2_eq]; norm_num
  have e150 : pow2 (-150) = 1 / 2 ^ 150 := by rw [pow2_eq]; norm_num
  rw [e24, e150] at h
  calc _ ≤ _ := h
    _ = _ := by ring

/-- a sum of nonnegative numbers is accurate to one part in 2^23 per term -/
theorem sum_rel : ∀ l : List F32, (∀ x ∈ l, x.isFinite = true ∧ 0 ≤ x.val) → (l.map F32.val).sum ≤ 2 ^ 100 →
    l.length ≤ 2 ^ 20 →
    ∃ S hS, F32.sum l = fin S hS ∧ 0 ≤ S ∧
      |S - (l.map F32.val).sum| ≤ (l.map F32.val).sum * (l.length / 2 ^ 23) + l.length / 2 ^ 149 := by
  intro l
  induction l using List.reverseRecOn with
  | nil =>
    intro _ _ _
    exact ⟨0, grid_zero, by decide +kernel, _root_.le_refl _, by simp⟩
  | append_singleton l x ih =>
    intro hx hs hl
    rw [List.length_append, List.length_singleton] at hl
    obtain ⟨hxf, hx0⟩ := hx x (by simp)
    obtain ⟨v, hv, rfl⟩ := isFinite_iff.1 hxf
    simp only [F32.val] at hx0
    have hsv : ((l ++ [fin v hv]).map F32.val).sum = (l.map F32.val).sum + v := by
      rw [List.map_append, List.sum_append]; simp [F32.val]
    rw [hsv] at hs ⊢
    have hT0 : 0 ≤ (l.map F32.val).sum := by
      apply List.sum_nonneg
      intro q hq
      obtain ⟨y, hy, rfl⟩ := List.mem_map.1 hq
      exact (hx y (by simp [hy])).2
    obtain ⟨S, hS, h1, h2, h4⟩ := ih (fun y hy => hx y (by simp [hy])) (by linarith) (by omega)
    have hsum : F32.sum (l ++ [fin v hv]) = rnd (S + v) := by
      unfold F32.sum at h1 ⊢
      rw [List.foldl_append, h1]
      show fin S hS + fin v hv = _
      rw [add_fin]
    have hlo : 0 ≤ rndQ (S + v) := rndQ_nonneg (by linarith)
    have he := err_pow (S + v)
    rw [abs_of_nonneg (by linarith : 0 ≤ S + v)] at he
    have hn : (l.length : ℚ) ≤ 2 ^ 20 := by
      have : l.length ≤ 2 ^ 20 := by omega
      exact_mod_cast this
    have hn0 : (0 : ℚ) ≤ l.length := by positivity
    rw [List.length_append, List.length_singleton]
    push_cast
    generalize (l.map F32.val).sum = T at *
    generalize (l.length : ℚ) = n at *
    have hST : S ≤ T + T / 8 + 1 / 2 ^ 129 := by
      have := (abs_le.1 h4).2
      have h5 : T * (n / 2 ^ 23) ≤ T * (1 / 8) := by
        apply _root_.mul_le_mul_of_nonneg_left _ hT0
        rw [div_le_div_iff₀ (by norm_num) (by norm_num)]
        linarith
      have h6 : n / 2 ^ 149 ≤ 1 / 2 ^ 129 := by
        rw [div_le_div_iff₀ (by norm_num) (by norm_num)]
        linarith
      linarith
    have hfin : OnGrid (rndQ (S + v)) ∧ |rndQ (S + v)| < pow2 128 := by
      refine ⟨onGrid_rndQ _, ?_⟩
      rw [abs_of_nonneg hlo, pow2_eq]
      have := (abs_le.1 he).2
      have h7 : rndQ (S + v) ≤ 2 ^ 102 := by
        have : T ≤ 2 ^ 100 := by linarith
        norm_num at *
        linarith
      refine _root_.lt_of_le_of_lt h7 (by norm_num)
    refine ⟨rndQ (S + v), hfin, ?_, hlo, ?_⟩
    · rw [hsum, rnd_of_lt hfin.2]
    · have e : rndQ (S + v) - (T + v) = (rndQ (S + v) - (S + v)) + (S - T) := by ring
      rw [e]
      refine _root_.le_trans (abs_add_le _ _) ?_
      have h8 : (S + v) / 2 ^ 24 ≤ (T + v) / 2 ^ 23 + 1 / 2 ^ 150 := by
        norm_num at hST ⊢
        linarith
      have h9 : T * (n / 2 ^ 23) ≤ (T + v) * (n / 2 ^ 23) := by
        apply _root_.mul_le_mul_of_nonneg_right (by linarith); positivity
      have e2 : (T + v) * ((n + 1) / 2 ^ 23) + (n + 1) / 2 ^ 149 =
          (T + v) * (n / 2 ^ 23) + (T + v) / 2 ^ 23 + n / 2 ^ 149 + 1 / 2 ^ 149 := by ring
      rw [e2]
      have e3 : (1 : ℚ) / 2 ^ 149 = 1 / 2 ^ 150 + 1 / 2 ^ 150 := by norm_num
      linarith

/-- terms with a relative error `ε` and an absolute error `ζ`, summed in f32 -/
theorem sum_terms {α} (L : List α) (f : α → F32) (g : α → ℚ) (ε ζ : ℚ) (hε1 : ε ≤ 1) (hζ0 : 0 ≤ ζ)
    (hg : ∀ a ∈ L, 0 ≤ g a)
    (hf : ∀ a ∈ L, (f a).isFinite = true ∧ 0 ≤ (f a).val ∧ |(f a).val - g a| ≤ g a * ε + ζ)
    (hs : ((L.map f).map F32.val).sum ≤ 2 ^ 100) (hl : L.length ≤ 2 ^ 20) :
    ∃ S hS, F32.sum (L.map f) = fin S hS ∧ 0 ≤ S ∧
      |S - (L.map g).sum| ≤ (L.map g).sum * (ε + L.length / 2 ^ 22) + L.length * (2 * ζ + 1 / 2 ^ 149) := by
  obtain ⟨S, hS, h1, h2, h3⟩ := sum_rel (L.map f) (fun x hx => by
    obtain ⟨a, ha, rfl⟩ := List.mem_map.1 hx
    exact ⟨(hf a ha).1, (hf a ha).2.1⟩) hs (by simpa using hl)
  refine ⟨S, hS, h1, h2, ?_⟩
  rw [List.length_map, List.map_map] at h3
  have hV : |(L.map (F32.val ∘ f)).sum - (L.map g).sum| ≤ (L.map g).sum * ε + L.length * ζ := by
    clear h1 h2 h3 hs hl
    induction L with
    | nil => simp
    | cons a L ih =>
      simp only [List.map_cons, List.sum_cons, List.length_cons, Function.comp]
      have := ih (fun b hb => hg b (by simp [hb])) (fun b hb => hf b (by simp [hb]))
      have ha := (hf a (by simp)).2.2
      have e : (f a).val + (L.map (F32.val ∘ f)).sum - (g a + (L.map g).sum) =
        ((f a).val - g a) + ((L.map (F32.val ∘ f)).sum - (L.map g).sum) := by ring
      rw [e]
      refine _root_.le_trans (abs_add_le _ _) ?_
      push_cast
      linarith
  have hζ : 0 ≤ (L.length : ℚ) * ζ := by positivity
  have hG : 0 ≤ (L.map g).sum := by
    apply List.sum_nonneg
    intro q hq
    obtain ⟨a, ha, rfl⟩ := List.mem_map.1 hq
    exact hg a ha
  have hn : (L.length : ℚ) ≤ 2 ^ 20 := by exact_mod_cast hl
  have hn0 : (0 : ℚ) ≤ L.length := by positivity
  have e : S - (L.map g).sum = (S - (L.map (F32.val ∘ f)).sum) + ((L.map (F32.val ∘ f)).sum - (L.map g).sum) := by ring
  rw [e]
  refine _root_.le_trans (abs_add_le _ _) ?_
  generalize (L.map g).sum = G at *
  generalize (L.map (F32.val ∘ f)).sum = V at *
  have hV2 := (abs_le.1 hV).2
  have h5 : V * (L.length / 2 ^ 23) ≤ (2 * G + L.length * ζ) * (L.length / 2 ^ 23) := by
    apply _root_.mul_le_mul_of_nonneg_right _ (by positivity)
    have : G * ε ≤ G * 1 := _root_.mul_le_mul_of_nonneg_left hε1 hG
    linarith
  have h6 : (L.length * ζ) * (L.length / 2 ^ 23) ≤ (L.length * ζ) * 1 := by
    apply _root_.mul_le_mul_of_nonneg_left _ hζ
    rw [_root_.div_le_one (by norm_num)]; linarith
  have e2 : (2 * G + L.length * ζ) * (L.length / 2 ^ 23) = G * (L.length / 2 ^ 22) + (L.length * ζ) * (L.length / 2 ^ 23) := by
    ring
  calc _ ≤ (V * (L.length / 2 ^ 23) + L.length / 2 ^ 149) + (G * ε + L.length * ζ) := add_le_add h3 hV
    _ ≤ G * (ε + L.length / 2 ^ 22) + L.length * (2 * ζ + 1 / 2 ^ 149) := by
      rw [e2] at h5
      have e3 : G * (ε + L.length / 2 ^ 22) + L.length * (2 * ζ + 1 / 2 ^ 149) =
        G * ε + G * (L.length / 2 ^ 22) + L.length * ζ + L.length * ζ + L.length / 2 ^ 149 := by ring
      rw [e3]; linarith

theorem zipWith_map {α β γ} (f : α → β → γ) : ∀ (u : List α) (v : List β),
    List.zipWith f u v = (u.zip v).map (fun p => f p.1 p.2)
  | [], _ => by simp
  | _ :: _, [] => by simp
  | a :: u, b :: v => by simp [zipWith_map f u v]

theorem sum_map_le {α} (L : List α) (g : α → ℚ) (B : ℚ) (h : ∀ a ∈ L, g a ≤ B) : (L.map g).sum ≤ L.length * B := by
  induction L with
  | nil => simp
  | cons a L ih =>
    have := ih (fun b hb => h b (by simp [hb]))
    have ha := h a (by simp)
    simp only [List.map_cons, List.sum_cons, List.length_cons]
    push_cast; linarith

/-- one inner product of two rows of at most twelve numbers in [0,1] -/
theorem dot_rel {c t : List F32} (hc : c.length ≤ 12) (hc1 : ∀ x ∈ c, 0 ≤ x ∧ x ≤ 1) (ht : ∀ x ∈ t, 0 ≤ x ∧ x ≤ 1) :
    ∃ d hd, dot c t = fin d hd ∧ 0 ≤ d ∧ d ≤ 16 ∧ 0 ≤ exactDot c t ∧ exactDot c t ≤ 12 ∧
      |d - exactDot c t| ≤ exactDot c t / 2 ^ 18 + 1 / 2 ^ 144 := by
  have hcase : ∀ p ∈ c.zip t, ∃ a ha b hb, p = (fin a ha, fin b hb) ∧ 0 ≤ a ∧ a ≤ 1 ∧ 0 ≤ b ∧ b ≤ 1 := by
    rintro ⟨x, y⟩ hp
    have hm := List.of_mem_zip hp
    obtain ⟨a, ha, rfl, a0, a1⟩ := unit_cases (hc1 x hm.1).1 (hc1 x hm.1).2
    obtain ⟨b, hb, rfl, b0, b1⟩ := unit_cases (ht y hm.2).1 (ht y hm.2).2
    exact ⟨a, ha, b, hb, rfl, a0, a1, b0, b1⟩
  have hlen : (c.zip t).length ≤ 12 := by rw [List.length_zip]; omega
  have hlenq : ((c.zip t).length : ℚ) ≤ 12 := by exact_mod_cast hlen
  have hmul : ∀ {a b : ℚ}, 0 ≤ a → a ≤ 1 → 0 ≤ b → b ≤ 1 → 0 ≤ a * b ∧ a * b ≤ 1 := fun a0 a1 b0 b1 =>
    ⟨_root_.mul_nonneg a0 b0, mul_le_one₀ a1 b0 b1⟩
  have hterm : ∀ p ∈ c.zip t, (p.1 * p.2).isFinite = true ∧ 0 ≤ (p.1 * p.2).val ∧ (p.1 * p.2).val ≤ 1 ∧
      0 ≤ p.1.val * p.2.val ∧ p.1.val * p.2.val ≤ 1 ∧
      |(p.1 * p.2).val - p.1.val * p.2.val| ≤ p.1.val * p.2.val * (1 / 2 ^ 24) + 1 / 2 ^ 150 := by
    intro p hp
    obtain ⟨a, ha, b, hb, rfl, a0, a1, b0, b1⟩ := hcase p hp
    obtain ⟨m0, m1⟩ := hmul a0 a1 b0 b1
    have hr0 : 0 ≤ rndQ (a * b) := rndQ_nonneg m0
    have hr1 : rndQ (a * b) ≤ 1 := rndQ_le_of_onGrid (by simpa using (grid_nat (n := 1) (by norm_num)).1) m1
    have hlt : |rndQ (a * b)| < pow2 128 := by
      rw [abs_of_nonneg hr0, pow2_eq]
      exact _root_.lt_of_le_of_lt hr1 (by norm_num)
    have he : fin a ha * fin b hb = fin (rndQ (a * b)) ⟨onGrid_rndQ _, hlt⟩ := by rw [mul_fin, rnd_of_lt hlt]
    simp only [he, F32.val]
    refine ⟨rfl, hr0, hr1, m0, m1, ?_⟩
    have := err_pow (a * b)
    rw [abs_of_nonneg m0] at this
    calc _ ≤ _ := this
      _ = _ := by ring
  obtain ⟨d, hd, h1, h2, h3⟩ := sum_terms (c.zip t) (fun p => p.1 * p.2) (fun p => p.1.val * p.2.val) (1 / 2 ^ 24)
    (1 / 2 ^ 150) (by norm_num) (by norm_num) (fun p hp => (hterm p hp).2.2.2.1)
    (fun p hp => ⟨(hterm p hp).1, (hterm p hp).2.1, (hterm p hp).2.2.2.2.2⟩)
    (by
      rw [List.map_map]
      refine _root_.le_trans (sum_map_le _ _ 1 (fun p hp => (hterm p hp).2.2.1)) ?_
      have : (12 : ℚ) ≤ 2 ^ 100 := by norm_num
      linarith) (by omega)
  have hD : exactDot c t = ((c.zip t).map (fun p => p.1.val * p.2.val)).sum := by
    unfold exactDot; rw [zipWith_map]
  have hD0 : 0 ≤ exactDot c t := by
    rw [hD]; apply List.sum_nonneg
    intro q hq
    obtain ⟨p, hp, rfl⟩ := List.mem_map.1 hq
    exact (hterm p hp).2.2.2.1
  have hD1 : exactDot c t ≤ 12 := by
    rw [hD]
    refine _root_.le_trans (sum_map_le _ _ 1 (fun p hp => (hterm p hp).2.2.2.2.1)) ?_
    linarith
  rw [← hD] at h3
  generalize exactDot c t = D at *
  generalize ((c.zip t).length : ℚ) = n at *
  have h5 : D * (1 / 2 ^ 24 + n / 2 ^ 22) ≤ D * (1 / 2 ^ 18) := by
    apply _root_.mul_le_mul_of_nonneg_left _ hD0
    norm_num; linarith
  have h6 : |d - D| ≤ D / 2 ^ 18 + 1 / 2 ^ 144 := by
    refine _root_.le_trans h3 ?_
    have : n * (2 * (1 / 2 ^ 150) + 1 / 2 ^ 149) ≤ 12 * (2 * (1 / 2 ^ 150) + 1 / 2 ^ 149) :=
      _root_.mul_le_mul_of_nonneg_right hlenq (by norm_num)
    have h7 : (12 : ℚ) * (2 * (1 / 2 ^ 150) + 1 / 2 ^ 149) ≤ 1 / 2 ^ 144 := by norm_num
    linarith
  refine ⟨d, hd, by unfold dot; rw [zipWith_map]; exact h1, h2, ?_, hD0, hD1, h6⟩
  have := (abs_le.1 h6).2
  norm_num at this
  linarith

/-- the weighted sum as a plain sum over the frames that count -/
theorem weighted_eq (chroma : List (List F32)) (w : List F32) (t : List F32) :
    weightedSumDot chroma (some w) t =
      F32.sum (((chroma.zip w).filter (fun p => decide (0 < p.2))).map (fun p => p.2 * dot p.1 t)) := by
  show (chroma.zip w).foldl (fun acc p => if 0 < p.2 then acc + p.2 * dot p.1 t else acc) 0 = _
  unfold F32.sum
  rw [List.foldl_map, List.foldl_filter]
  congr 1
  funext acc p
  by_cases h : 0 < p.2 <;> simp [h]

/-- **C108** (accuracy): the match score of a template is the exact (weighted) sum of inner products, to one part in
2^22 per frame (plus 32) and 2^-66. -/
theorem C108_accuracy (chroma : List (List F32)) (weights : Option (List F32)) (t : List F32) (hc : ChromaInput chroma weights)
    (hN : chroma.length ≤ 2 ^ 16) (ht : ∀ x ∈ t, 0 ≤ x ∧ x ≤ 1) :
    ∃ S hS, weightedSumDot chroma weights t = fin S hS ∧ 0 ≤ exactScore chroma weights t ∧
      |S - exactScore chroma weights t| ≤ exactScore chroma weights t * ((chroma.length + 32) / 2 ^ 22) + 1 / 2 ^ 64 := by
  have hd : ∀ c ∈ chroma, ∃ d hd, dot c t = fin d hd ∧ 0 ≤ d ∧ d ≤ 16 ∧ 0 ≤ exactDot c t ∧ exactDot c t ≤ 12 ∧
      |d - exactDot c t| ≤ exactDot c t / 2 ^ 18 + 1 / 2 ^ 144 := fun c hcm =>
    dot_rel (hc.rows c hcm).1.le (hc.rows c hcm).2 ht
  have hNq : (chroma.length : ℚ) ≤ 2 ^ 16 := by exact_mod_cast hN
  have hN0 : (0 : ℚ) ≤ chroma.length := by positivity
  cases weights with
  | none =>
    have e : weightedSumDot chroma none t = F32.sum (chroma.map (fun c => dot c t)) := by
      show chroma.foldl (fun acc c => acc + dot c t) 0 = _
      unfold F32.sum; rw [List.foldl_map]
    have hval : ∀ c ∈ chroma, (dot c t).isFinite = true ∧ 0 ≤ (dot c t).val ∧ (dot c t).val ≤ 16 ∧
        |(dot c t).val - exactDot c t| ≤ exactDot c t * (1 / 2 ^ 18) + 1 / 2 ^ 144 := by
      intro c hcm
      obtain ⟨d, hd', e1, e2, e3, _, _, e6⟩ := hd c hcm
      rw [e1]
      refine ⟨rfl, e2, e3, _root_.le_trans e6 (le_of_eq (by ring))⟩
    obtain ⟨S, hS, h1, h2, h3⟩ := sum_terms chroma (fun c => dot c t) (fun c => exactDot c t) (1 / 2 ^ 18)
      (1 / 2 ^ 144) (by norm_num) (by norm_num) (fun c hcm => by obtain ⟨_, _, _, _, _, h, _⟩ := hd c hcm; exact h)
      (fun c hcm => ⟨(hval c hcm).1, (hval c hcm).2.1, (hval c hcm).2.2.2⟩)
      (by
        rw [List.map_map]
        refine _root_.le_trans (sum_map_le _ _ 16 (fun c hcm => (hval c hcm).2.2.1)) ?_
        have : (2 ^ 16 : ℚ) * 16 ≤ 2 ^ 100 := by norm_num
        linarith) (by omega)
    have hX0 : 0 ≤ exactScore chroma none t := by
      apply List.sum_nonneg
      intro q hq
      obtain ⟨c, hcm, rfl⟩ := List.mem_map.1 hq
      obtain ⟨_, _, _, _, _, h, _⟩ := hd c hcm
      exact h
    refine ⟨S, hS, by rw [e, h1], hX0, ?_⟩
    change |S - exactScore chroma none t| ≤ exactScore chroma none t * _ + _ at h3
    refine _root_.le_trans h3 ?_
    have h4 : exactScore chroma none t * (1 / 2 ^ 18 + chroma.length / 2 ^ 22) ≤
        exactScore chroma none t * ((chroma.length + 32) / 2 ^ 22) := by
      apply _root_.mul_le_mul_of_nonneg_left _ hX0
      rw [add_div]
      norm_num
      linarith
    have h5 : (chroma.length : ℚ) * (2 * (1 / 2 ^ 144) + 1 / 2 ^ 149) ≤ 2 ^ 16 * (2 * (1 / 2 ^ 144) + 1 / 2 ^ 149) :=
      _root_.mul_le_mul_of_nonneg_right hNq (by norm_num)
    have h6 : (2 ^ 16 : ℚ) * (2 * (1 / 2 ^ 144) + 1 / 2 ^ 149) ≤ 1 / 2 ^ 64 := by norm_num
    linarith
  | some w =>
    have hwc : ∀ p ∈ chroma.zip w, ∃ v hv, p.2 = fin v hv ∧ 0 ≤ v ∧ v ≤ 2 ^ 60 := by
      rintro ⟨c, x⟩ hp
      have hm := List.of_mem_zip hp
      obtain ⟨b0, b1⟩ := hc.weights w rfl x hm.2
      have e60 : rnd (pow2 60) = fin (2 ^ 60) (by decide +kernel) := by decide +kernel
      rw [e60] at b1
      rw [zero_def] at b0
      obtain ⟨v, hv, rfl, v0, v1⟩ := between_cases b0 b1
      exact ⟨v, hv, rfl, v0, v1⟩
    let L := (chroma.zip w).filter (fun p => decide (0 < p.2))
    have hL : ∀ p ∈ L, p ∈ chroma.zip w := fun p hp => List.mem_of_mem_filter hp
    have hLlen : L.length ≤ chroma.length := by
      refine Nat.le_trans (List.length_filter_le _ _) ?_
      rw [List.length_zip]; omega
    have hLq : (L.length : ℚ) ≤ chroma.length := by exact_mod_cast hLlen
    have hterm : ∀ p ∈ L, (p.2 * dot p.1 t).isFinite = true ∧ 0 ≤ (p.2 * dot p.1 t).val ∧
        (p.2 * dot p.1 t).val ≤ 2 ^ 65 ∧ 0 ≤ p.2.val * exactDot p.1 t ∧
        |(p.2 * dot p.1 t).val - p.2.val * exactDot p.1 t| ≤ p.2.val * exactDot p.1 t * (1 / 2 ^ 17) + 1 / 2 ^ 83 := by
      intro p hp
      obtain ⟨v, hv, ev, v0, v1⟩ := hwc p (hL p hp)
      obtain ⟨d, hd', e1, e2, e3, e4, e5, e6⟩ := hd p.1 (List.of_mem_zip (hL p hp)).1
      rw [ev, e1, mul_fin]
      have m0 : 0 ≤ v * d := _root_.mul_nonneg v0 e2
      have m1 : v * d ≤ 2 ^ 60 * 16 := mul_le_mul v1 e3 e2 (by norm_num)
      have he := err_pow (v * d)
      rw [abs_of_nonneg m0] at he
      have hr0 : 0 ≤ rndQ (v * d) := rndQ_nonneg m0
      have hr1 : rndQ (v * d) ≤ 2 ^ 65 := by
        have := (abs_le.1 he).2
        norm_num at *
        linarith
      have hlt : |rndQ (v * d)| < pow2 128 := by
        rw [abs_of_nonneg hr0, pow2_eq]
        exact _root_.lt_of_le_of_lt hr1 (by norm_num)
      rw [rnd_of_lt hlt]
      simp only [F32.val]
      refine ⟨rfl, hr0, hr1, _root_.mul_nonneg v0 e4, ?_⟩
      generalize exactDot p.1 t = D at *
      have ee : rndQ (v * d) - v * D = (rndQ (v * d) - v * d) + v * (d - D) := by ring
      rw [ee]
      refine _root_.le_trans (abs_add_le _ _) ?_
      rw [_root_.abs_mul, abs_of_nonneg v0]
      have h7 : v * |d - D| ≤ v * (D / 2 ^ 18 + 1 / 2 ^ 144) := _root_.mul_le_mul_of_nonneg_left e6 v0
      have h8 : v * d ≤ v * (D + (D / 2 ^ 18 + 1 / 2 ^ 144)) :=
        _root_.mul_le_mul_of_nonneg_left (by have := (abs_le.1 e6).2; linarith) v0
      have h9 : 0 ≤ v * D := _root_.mul_nonneg v0 e4
      have e8 : v * (D + (D / 2 ^ 18 + 1 / 2 ^ 144)) = v * D + v * D / 2 ^ 18 + v / 2 ^ 144 := by ring
      have e9 : v * (D / 2 ^ 18 + 1 / 2 ^ 144) = v * D / 2 ^ 18 + v / 2 ^ 144 := by ring
      rw [e8] at h8
      rw [e9] at h7
      generalize v * D = Z at *
      generalize v * d = y at *
      generalize v * |d - D| = u at *
      norm_num at *
      linarith
    have hX : exactScore chroma (some w) t = (L.map (fun p => p.2.val * exactDot p.1 t)).sum := by
      show ((chroma.zip w).map (fun p => p.2.val * exactDot p.1 t)).sum = _
      have : ∀ M : List (List F32 × F32), (∀ p ∈ M, p ∈ chroma.zip w) →
          (M.map (fun p => p.2.val * exactDot p.1 t)).sum =
            ((M.filter (fun p => decide (0 < p.2))).map (fun p => p.2.val * exactDot p.1 t)).sum := by
        intro M
        induction M with
        | nil => simp
        | cons p M ih =>
          intro hM
          have ih := ih (fun q hq => hM q (by simp [hq]))
          by_cases h : 0 < p.2
          · rw [List.filter_cons_of_pos (by simpa using h)]
            simp only [List.map_cons, List.sum_cons, ih]
          · rw [List.filter_cons_of_neg (by simpa using h)]
            simp only [List.map_cons, List.sum_cons, ih]
            obtain ⟨v, hv, ev, v0, _⟩ := hwc p (hM p (by simp))
            rw [ev, zero_def, fin_lt_fin] at h
            have : v = 0 := _root_.le_antisymm (not_lt.1 h) v0
            rw [ev]; simp [F32.val, this]
      exact this _ (fun p hp => hp)
    obtain ⟨S, hS, h1, h2, h3⟩ := sum_terms L (fun p => p.2 * dot p.1 t) (fun p => p.2.val * exactDot p.1 t) (1 / 2 ^ 17)
      (1 / 2 ^ 83) (by norm_num) (by norm_num) (fun p hp => (hterm p hp).2.2.2.1)
      (fun p hp => ⟨(hterm p hp).1, (hterm p hp).2.1, (hterm p hp).2.2.2.2⟩)
      (by
        rw [List.map_map]
        refine _root_.le_trans (sum_map_le _ _ (2 ^ 65) (fun p hp => (hterm p hp).2.2.1)) ?_
        have : (L.length : ℚ) * 2 ^ 65 ≤ 2 ^ 16 * 2 ^ 65 := _root_.mul_le_mul_of_nonneg_right (by linarith) (by norm_num)
        have h' : (2 ^ 16 : ℚ) * 2 ^ 65 ≤ 2 ^ 100 := by norm_num
        linarith) (by omega)
    have hX0 : 0 ≤ exactScore chroma (some w) t := by
      rw [hX]
      apply List.sum_nonneg
      intro q hq
      obtain ⟨p, hp, rfl⟩ := List.mem_map.1 hq
      exact (hterm p hp).2.2.2.1
    refine ⟨S, hS, by rw [weighted_eq]; exact h1, hX0, ?_⟩
    rw [← hX] at h3
    refine _root_.le_trans h3 ?_
    have h4 : exactScore chroma (some w) t * (1 / 2 ^ 17 + L.length / 2 ^ 22) ≤
        exactScore chroma (some w) t * ((chroma.length + 32) / 2 ^ 22) := by
      apply _root_.mul_le_mul_of_nonneg_left _ hX0
      rw [add_div]
      norm_num
      linarith
    have h5 : (L.length : ℚ) * (2 * (1 / 2 ^ 83) + 1 / 2 ^ 149) ≤ 2 ^ 16 * (2 * (1 / 2 ^ 83) + 1 / 2 ^ 149) :=
      _root_.mul_le_mul_of_nonneg_right (by linarith) (by norm_num)
    have h6 : (2 ^ 16 : ℚ) * (2 * (1 / 2 ^ 83) + 1 / 2 ^ 149) ≤ 1 / 2 ^ 64 := by norm_num
    linarith

/-! ### transposition -/

/-- the template of every key is, to one part in 2^22, the C template of its family and mode moved up -/
theorem template_close (i : Fin 12) (s : Fin 12) :
    (∀ T ∈ [krumhanslKessler, temperley], ∀ f ∈ [T.major, T.minor],
      0 < ((f 0).getD s nan).val ∧
      |((f i).getD ((s + i) % 12) nan).val - ((f 0).getD s nan).val| ≤ ((f 0).getD s nan).val / 2 ^ 22) := by
  revert i s; decide +kernel

/-- `t'` is `t` moved up by `k` semitones, to one part in 2^20 -/
def CloseUp (k : ℕ) (t t' : List F32) : Prop :=
  t.length = 12 ∧ t'.length = 12 ∧
  ∀ s, s < 12 → |(t'.getD ((s + k) % 12) nan).val - (t.getD s nan).val| ≤ (t.getD s nan).val / 2 ^ 20

theorem close_pair {f : Fin 12 → List F32} (hlen : ∀ i, (f i).length = 12)
    (h : ∀ i s : Fin 12, 0 < ((f 0).getD s nan).val ∧
      |((f i).getD ((s + i) % 12) nan).val - ((f 0).getD s nan).val| ≤ ((f 0).getD s nan).val / 2 ^ 22) (k i : ℕ) :
    CloseUp k (f ⟨i % 12, Nat.mod_lt _ (by decide)⟩) (f ⟨(i + k) % 12, Nat.mod_lt _ (by decide)⟩) := by
  refine ⟨hlen _, hlen _, fun s hs => ?_⟩
  have hr : (s + (12 - i % 12)) % 12 < 12 := Nat.mod_lt _ (by decide)
  have h1 := h ⟨i % 12, Nat.mod_lt _ (by decide)⟩ ⟨(s + (12 - i % 12)) % 12, hr⟩
  have h2 := h ⟨(i + k) % 12, Nat.mod_lt _ (by decide)⟩ ⟨(s + (12 - i % 12)) % 12, hr⟩
  simp only at h1 h2
  rw [show ((s + (12 - i % 12)) % 12 + i % 12) % 12 = s by omega] at h1
  rw [show ((s + (12 - i % 12)) % 12 + (i + k) % 12) % 12 = (s + k) % 12 by omega] at h2
  obtain ⟨h10, h1⟩ := h1
  have h2 := h2.2
  generalize ((f 0).getD ((s + (12 - i % 12)) % 12) nan).val = z at *
  rw [abs_le] at *
  constructor <;> (norm_num at *; linarith [h1.1, h1.2, h2.1, h2.2])

theorem matchScore_template {T : Templates} (hT : T ∈ [krumhanslKessler, temperley]) (k : ℕ) (key : Key) :
    ∃ t t', CloseUp k t t' ∧ (∀ x ∈ t, 0 ≤ x ∧ x ≤ 1) ∧ (∀ x ∈ t', 0 ≤ x ∧ x ≤ 1) ∧
      (∀ chroma weights, matchScore chroma T weights key = weightedSumDot chroma weights t) ∧
      (∀ chroma weights, matchScore chroma T weights (keyUp k key) = weightedSumDot chroma weights t') := by
  have hU : UnitTemplates T := by
    rcases List.mem_cons.1 hT with rfl | h
    · exact unitTemplates_builtin.1
    · rw [List.mem_singleton.1 h]; exact unitTemplates_builtin.2
  have hlen : ∀ i, (T.major i).length = 12 ∧ (T.minor i).length = 12 := by
    intro i
    rcases List.mem_cons.1 hT with rfl | h
    · exact ⟨(C44_weights i _ (by simp)).1, (C44_weights i (krumhanslKessler.minor i) (by simp)).1⟩
    · rw [List.mem_singleton.1 h]
      exact ⟨(C44_weights i (temperley.major i) (by simp)).1, (C44_weights i (temperley.minor i) (by simp)).1⟩
  have e : ∀ (f : Fin 12 → List F32) (i : ℕ), f ⟨(i + k) % 12 % 12, Nat.mod_lt _ (by decide)⟩ =
      f ⟨(i + k) % 12, Nat.mod_lt _ (by decide)⟩ := fun f i => by congr 2; omega
  cases key with
  | major i =>
    exact ⟨_, _, close_pair (fun j => (hlen j).1) (fun j s => template_close j s T hT T.major (by simp)) k i,
      hU.1 _, hU.1 _, fun _ _ => rfl, fun chroma weights => by
        show weightedSumDot chroma weights (T.major _) = _
        rw [e T.major i]⟩
  | minor i =>
    exact ⟨_, _, close_pair (fun j => (hlen j).2) (fun j s => template_close j s T hT T.minor (by simp)) k i,
      hU.2 _, hU.2 _, fun _ _ => rfl, fun chroma weights => by
        show weightedSumDot chroma weights (T.minor _) = _
        rw [e T.minor i]⟩

theorem zipWith_close : ∀ (c u v : List F32), (∀ x ∈ c, 0 ≤ x.val) → u.length = v.length →
    (∀ s, s < u.length → |(v.getD s nan).val - (u.getD s nan).val| ≤ (u.getD s nan).val / 2 ^ 20) →
    |exactDot c v - exactDot c u| ≤ exactDot c u / 2 ^ 20
  | [], u, v => by intros; simp [exactDot]
  | x :: c, [], [] => by intros; simp [exactDot]
  | x :: c, [], b :: v => by intro _ h; simp at h
  | x :: c, a :: u, [] => by intro _ h; simp at h
  | x :: c, a :: u, b :: v => by
    intro hc hl h
    have ih := zipWith_close c u v (fun y hy => hc y (by simp [hy])) (by simpa using hl) (fun s hs => by
      have := h (s + 1) (by simpa using hs)
      simpa using this)
    have h0 := h 0 (by simp)
    simp only [List.getD_cons_zero] at h0
    have hx := hc x (by simp)
    have e1 : ∀ w y, exactDot (x :: c) (y :: w) = x.val * y.val + exactDot c w := fun w y => by
      simp [exactDot]
    rw [e1, e1]
    have e2 : x.val * b.val + exactDot c v - (x.val * a.val + exactDot c u) =
      x.val * (b.val - a.val) + (exactDot c v - exactDot c u) := by ring
    rw [e2]
    refine _root_.le_trans (abs_add_le _ _) ?_
    rw [_root_.abs_mul, abs_of_nonneg hx]
    have := _root_.mul_le_mul_of_nonneg_left h0 hx
    calc _ ≤ x.val * (a.val / 2 ^ 20) + exactDot c u / 2 ^ 20 := add_le_add this ih
      _ = _ := by ring

theorem exactDot_moved {k : ℕ} {c c' t t' : List F32} (hc : MovedUp k c c') (hc0 : ∀ x ∈ c, 0 ≤ x.val)
    (ht : CloseUp k t t') : |exactDot c' t' - exactDot c t| ≤ exactDot c t / 2 ^ 20 := by
  obtain ⟨t1, t2, t3⟩ := ht
  let tt := (List.range 12).map (fun s => t'.getD ((s + k) % 12) nan)
  have htl : tt.length = 12 := by simp [tt]
  have htg : ∀ s, s < 12 → tt[s]? = t'[(s + k) % 12]? := by
    intro s hs
    have hm : (s + k) % 12 < 12 := Nat.mod_lt _ (by decide)
    simp only [tt, List.getElem?_map, List.getElem?_range hs, Option.map_some]
    rw [List.getElem?_eq_getElem (by omega), List.getD_eq_getElem?_getD, List.getElem?_eq_getElem (by omega)]
    rfl
  have hperm : (List.zipWith (fun x y => x.val * y.val) c' t').Perm (List.zipWith (fun x y => x.val * y.val) c tt) := by
    apply perm_of_moved (k := k)
    · simp [hc.1, htl]
    · simp [hc.2.1, t2]
    · intro s hs
      rw [List.getElem?_zipWith, List.getElem?_zipWith, hc.2.2 s hs, htg s hs]
  have e : exactDot c' t' = exactDot c tt := hperm.sum_eq
  rw [e]
  apply zipWith_close c t tt hc0 (by rw [t1, htl])
  intro s hs
  rw [t1] at hs
  have := t3 s hs
  rw [List.getD_eq_getElem?_getD] at this
  rw [List.getD_eq_getElem?_getD, htg s hs]
  exact this

theorem exactDot_nonneg : ∀ (c t : List F32), (∀ x ∈ c, 0 ≤ x.val) → (∀ x ∈ t, 0 ≤ x.val) → 0 ≤ exactDot c t
  | [], _ => by intros; simp [exactDot]
  | _ :: _, [] => by intros; simp [exactDot]
  | a :: c, b :: t => by
    intro h1 h2
    have := exactDot_nonneg c t (fun x hx => h1 x (by simp [hx])) (fun x hx => h2 x (by simp [hx]))
    have h3 := _root_.mul_nonneg (h1 a (by simp)) (h2 b (by simp))
    simp only [exactDot, List.zipWith_cons_cons, List.sum_cons] at *
    linarith

theorem exactScore_moved {k : ℕ} {chroma chroma' : List (List F32)} (hm : List.Forall₂ (MovedUp k) chroma chroma')
    {t t' : List F32} (ht : CloseUp k t t') (h0 : ∀ c ∈ chroma, ∀ x ∈ c, 0 ≤ x.val) (weights : Option (List F32))
    (hw : ∀ w, weights = some w → ∀ x ∈ w, 0 ≤ x.val) :
    |exactScore chroma' weights t' - exactScore chroma weights t| ≤ exactScore chroma weights t / 2 ^ 20 := by
  cases weights with
  | none =>
    simp only [exactScore]
    induction hm with
    | nil => simp
    | @cons c c' l l' h1 _ ih =>
      have ih := ih (fun d hd => h0 d (by simp [hd]))
      have hd := exactDot_moved h1 (h0 c (by simp)) ht
      simp only [List.map_cons, List.sum_cons]
      rw [abs_le] at *
      constructor <;> linarith [ih.1, ih.2, hd.1, hd.2]
  | some w =>
    simp only [exactScore]
    replace hw := hw w rfl
    induction hm generalizing w with
    | nil => simp
    | @cons c c' l l' h1 _ ih =>
      cases w with
      | nil => simp
      | cons x w =>
        have ih := ih (fun d hd => h0 d (by simp [hd])) w (fun y hy => hw y (by simp [hy]))
        have hd := exactDot_moved h1 (h0 c (by simp)) ht
        have hx := hw x (by simp)
        simp only [List.zip_cons_cons, List.map_cons, List.sum_cons]
        rw [abs_le] at *
        have g1 := _root_.mul_le_mul_of_nonneg_left hd.1 hx
        have g2 := _root_.mul_le_mul_of_nonneg_left hd.2 hx
        have e1 : x.val * (exactDot c' t' - exactDot c t) = x.val * exactDot c' t' - x.val * exactDot c t := by ring
        have e2 : x.val * (exactDot c t / 2 ^ 20) = x.val * exactDot c t / 2 ^ 20 := by ring
        have e3 : x.val * -(exactDot c t / 2 ^ 20) = -(x.val * exactDot c t / 2 ^ 20) := by ring
        rw [e1, e3] at g1
        rw [e1, e2] at g2
        constructor <;> linarith [ih.1, ih.2]

theorem chromaInput_moved {k : ℕ} {chroma chroma' : List (List F32)} {weights : Option (List F32)}
    (hm : List.Forall₂ (MovedUp k) chroma chroma') (hc : ChromaInput chroma weights) : ChromaInput chroma' weights := by
  have hl := hm.length_eq
  refine ⟨?_, ?_, fun w hw => by rw [hc.len w hw, hl], hc.weights⟩
  · intro h; apply hc.ne; rw [h] at hl; exact List.length_eq_zero_iff.1 hl
  · have hrows := hc.rows
    clear hc hl
    induction hm with
    | nil => simp
    | @cons c c' l l' h1 _ ih =>
      intro d hd
      rcases List.mem_cons.1 hd with rfl | hd
      · refine ⟨h1.2.1, fun x hx => (hrows c (by simp)).2 x ?_⟩
        exact (perm_of_moved h1.1 h1.2.1 h1.2.2).mem_iff.1 hx
      · exact ih (fun e he => hrows e (by simp [he])) d hd

theorem nonneg_val {x : F32} (h : 0 ≤ x) : 0 ≤ x.val := by
  rcases nonneg_cases h with rfl | ⟨v, hv, rfl, h0⟩
  · exact _root_.le_refl _
  · exact h0

theorem keyUp_valid (k : ℕ) (key : Key) : ValidKey (keyUp k key) := by
  cases key <;> exact Nat.mod_lt _ (by decide)

theorem keyUp_same (k : ℕ) (key : Key) : SameMode (keyUp k key) key := by cases key <;> trivial

theorem keyUp_back {k : ℕ} {key : Key} (h : ValidKey key) : ∃ j, ValidKey j ∧ SameMode j key ∧ keyUp k j = key := by
  cases key with
  | major i =>
    refine ⟨.major ((i + (12 - k % 12)) % 12), Nat.mod_lt _ (by decide), trivial, ?_⟩
    change i < 12 at h
    show Key.major _ = _
    congr 1; omega
  | minor i =>
    refine ⟨.minor ((i + (12 - k % 12)) % 12), Nat.mod_lt _ (by decide), trivial, ?_⟩
    change i < 12 at h
    show Key.minor _ = _
    congr 1; omega

/-- the arithmetic of the margin: `a`, `b` are the two scores before, `a'`, `b'` after transposition, `A`, `B`, `A'`, `B'`
their exact values -/
theorem margin_kept {a b a' b' A B A' B' e : ℚ} (he0 : 1 / 2 ^ 17 ≤ e) (he1 : e ≤ 1 / 2 ^ 5)
    (hA0 : 0 ≤ A) (hB0 : 0 ≤ B)
    (ha : |a - A| ≤ A * e + 1 / 2 ^ 64) (hb : |b - B| ≤ B * e + 1 / 2 ^ 64)
    (ha' : |a' - A'| ≤ A' * e + 1 / 2 ^ 64) (hb' : |b' - B'| ≤ B' * e + 1 / 2 ^ 64)
    (hA : |A' - A| ≤ A / 2 ^ 20) (hB : |B' - B| ≤ B / 2 ^ 20) (hpos : 1 / 2 ^ 30 ≤ a) (hm : b ≤ a * (1 - 8 * e)) :
    b' < a' := by
  have z : (0 : ℚ) < 1 / 2 ^ 64 := by norm_num
  -- upper bound of `b'`
  have e0 : 0 < e := _root_.lt_of_lt_of_le (by norm_num) he0
  have e1 : e ≤ 1 / 32 := by norm_num at he1 ⊢; exact he1
  have d : (1 : ℚ) / 2 ^ 20 ≤ e / 8 := by norm_num at he0 ⊢; linarith
  have hB1 : B * (1 - e) ≤ b + 1 / 2 ^ 64 := by have := (abs_le.1 hb).1; linarith
  have hB2 : B' ≤ B * (1 + e / 8) := by
    have := (abs_le.1 hB).2
    have h1 : B * (1 / 2 ^ 20) ≤ B * (e / 8) := _root_.mul_le_mul_of_nonneg_left d hB0
    have h2 : B * (1 / 2 ^ 20) = B / 2 ^ 20 := by ring
    linarith
  have hB3 : b' ≤ B' * (1 + e) + 1 / 2 ^ 64 := by have := (abs_le.1 hb').2; linarith
  have hA1 : a - 1 / 2 ^ 64 ≤ A * (1 + e) := by have := (abs_le.1 ha).2; linarith
  have hA2 : A * (1 - e / 8) ≤ A' := by
    have := (abs_le.1 hA).1
    have h1 : A * (1 / 2 ^ 20) ≤ A * (e / 8) := _root_.mul_le_mul_of_nonneg_left d hA0
    have h2 : A * (1 / 2 ^ 20) = A / 2 ^ 20 := by ring
    linarith
  have hA3 : A' * (1 - e) - 1 / 2 ^ 64 ≤ a' := by have := (abs_le.1 ha').1; linarith
  -- (1 + e/8)(1 + e) ≤ (1 + 5e/2)(1 - e) and (1 - 5e/2)(1 + e) ≤ (1 - e/8)(1 - e)
  have k1 : (1 + e / 8) * (1 + e) ≤ (1 + 5 / 2 * e) * (1 - e) := by nlinarith
  have k2 : (1 - 5 / 2 * e) * (1 + e) ≤ (1 - e / 8) * (1 - e) := by nlinarith
  have u : b' ≤ (b + 1 / 2 ^ 64) * (1 + 5 / 2 * e) + 1 / 2 ^ 64 := by
    calc b' ≤ B' * (1 + e) + 1 / 2 ^ 64 := hB3
      _ ≤ B * (1 + e / 8) * (1 + e) + 1 / 2 ^ 64 := by
        have := _root_.mul_le_mul_of_nonneg_right hB2 (by linarith : 0 ≤ 1 + e); linarith
      _ = B * ((1 + e / 8) * (1 + e)) + 1 / 2 ^ 64 := by ring
      _ ≤ B * ((1 + 5 / 2 * e) * (1 - e)) + 1 / 2 ^ 64 := by
        have := _root_.mul_le_mul_of_nonneg_left k1 hB0; linarith
      _ = B * (1 - e) * (1 + 5 / 2 * e) + 1 / 2 ^ 64 := by ring
      _ ≤ _ := by have := _root_.mul_le_mul_of_nonneg_right hB1 (by linarith : 0 ≤ 1 + 5 / 2 * e); linarith
  have l : (a - 1 / 2 ^ 64) * (1 - 5 / 2 * e) - 1 / 2 ^ 64 ≤ a' := by
    calc (a - 1 / 2 ^ 64) * (1 - 5 / 2 * e) - 1 / 2 ^ 64 ≤ A * (1 + e) * (1 - 5 / 2 * e) - 1 / 2 ^ 64 := by
          have := _root_.mul_le_mul_of_nonneg_right hA1 (by linarith : 0 ≤ 1 - 5 / 2 * e); linarith
      _ = A * ((1 - 5 / 2 * e) * (1 + e)) - 1 / 2 ^ 64 := by ring
      _ ≤ A * ((1 - e / 8) * (1 - e)) - 1 / 2 ^ 64 := by
        have := _root_.mul_le_mul_of_nonneg_left k2 hA0; linarith
      _ = A * (1 - e / 8) * (1 - e) - 1 / 2 ^ 64 := by ring
      _ ≤ A' * (1 - e) - 1 / 2 ^ 64 := by
        have := _root_.mul_le_mul_of_nonneg_right hA2 (by linarith : 0 ≤ 1 - e); linarith
      _ ≤ a' := hA3
  have a0 : 0 < a := _root_.lt_of_lt_of_le (by norm_num) hpos
  have v : (b + 1 / 2 ^ 64) * (1 + 5 / 2 * e) ≤ (a * (1 - 8 * e) + 1 / 2 ^ 64) * (1 + 5 / 2 * e) :=
    _root_.mul_le_mul_of_nonneg_right (by linarith) (by linarith)
  have w : a * ((1 - 8 * e) * (1 + 5 / 2 * e)) ≤ a * (1 - 5 / 2 * e - 3 * e) :=
    _root_.mul_le_mul_of_nonneg_left (by nlinarith) a0.le
  have x : 1 / 2 ^ 47 ≤ a * e := by
    calc (1 : ℚ) / 2 ^ 47 = 1 / 2 ^ 30 * (1 / 2 ^ 17) := by norm_num
      _ ≤ a * e := mul_le_mul hpos he0 (by norm_num) a0.le
  have y : (1 : ℚ) / 2 ^ 64 * (5 / 2 * e) ≤ 1 / 2 ^ 64 := by
    have : 5 / 2 * e ≤ 1 := by linarith
    calc _ ≤ (1 : ℚ) / 2 ^ 64 * 1 := _root_.mul_le_mul_of_nonneg_left this z.le
      _ = _ := by ring
  have z2 : (6 : ℚ) * (1 / 2 ^ 64) < 3 * (1 / 2 ^ 47) := by norm_num
  generalize (1 : ℚ) / 2 ^ 64 = ζ at *
  generalize (1 : ℚ) / 2 ^ 47 = η at *
  have r1 : (a * (1 - 8 * e) + ζ) * (1 + 5 / 2 * e) = a * ((1 - 8 * e) * (1 + 5 / 2 * e)) + ζ + ζ * (5 / 2 * e) := by ring
  have r2 : (a - ζ) * (1 - 5 / 2 * e) = a * (1 - 5 / 2 * e - 3 * e) + 3 * (a * e) - ζ + ζ * (5 / 2 * e) := by ring
  have r3 : 0 ≤ ζ * (5 / 2 * e) := _root_.mul_nonneg z.le (by linarith)
  rw [r1] at v
  rw [r2] at l
  linarith

/-- a key `K` whose template matches clearly better than every other of its mode: after transposition the reported key, if
of that mode, is `K` moved up -/
theorem best_moves {ord' : List (Key × F32) → List (Key × F32)} (hord' : ∀ l, (ord' l).Perm l) {T : Templates}
    (hT : T ∈ [krumhanslKessler, temperley]) {k : ℕ} {chroma chroma' : List (List F32)} {weights : Option (List F32)}
    (hc : ChromaInput chroma weights) (hN : chroma.length ≤ 2 ^ 16) (hmove : List.Forall₂ (MovedUp k) chroma chroma')
    {K : Key} {r' : Res} (h' : detectKey ord' chroma' T weights = .ok r') (hmode : SameMode K r'.key)
    (hpos : 1e-9 < matchScore chroma T weights K)
    (hmargin : ∀ j, ValidKey j → SameMode K j → j ≠ K →
      (matchScore chroma T weights j).val ≤ (matchScore chroma T weights K).val * (1 - (chroma.length + 32) / 2 ^ 19)) :
    r'.key = keyUp k K := by
  have hU : UnitTemplates T := by
    rcases List.mem_cons.1 hT with rfl | h
    · exact unitTemplates_builtin.1
    · rw [List.mem_singleton.1 h]; exact unitTemplates_builtin.2
  have hc' := chromaInput_moved hmove hc
  have hl := hmove.length_eq
  have hv' : ValidKey r'.key := by
    obtain ⟨r2, e, v, _⟩ := C60_total ord' hord' chroma' weights T hc' hU
    rw [h'] at e; injection e with e; rw [e]; exact v
  obtain ⟨j, hj, hjm, hjk⟩ := keyUp_back (k := k) hv'
  by_contra hne
  have hjr : j ≠ K := by rintro rfl; exact hne hjk.symm
  have mode : ∀ {a b c : Key}, SameMode a b → SameMode c b → SameMode a c := by
    intro a b c; cases a <;> cases b <;> cases c <;> simp [SameMode]
  have mode' : ∀ {a b c : Key}, SameMode a b → SameMode c a → SameMode b c := by
    intro a b c; cases a <;> cases b <;> cases c <;> simp [SameMode]
  have hbest := C58_best_in_mode ord' hord' chroma' weights T hc' hU r' h' (keyUp k K) (keyUp_valid _ _)
    (mode' hmode (keyUp_same _ _))
  rw [← hjk] at hbest
  have hm := hmargin j hj (mode hmode hjm) hjr
  have hc0 : ∀ c ∈ chroma, ∀ x ∈ c, 0 ≤ x.val := fun c hcm x hx => nonneg_val ((hc.rows c hcm).2 x hx).1
  have hw0 : ∀ w, weights = some w → ∀ x ∈ w, 0 ≤ x.val := fun w hw x hx => nonneg_val (hc.weights w hw x hx).1
  obtain ⟨ta, ta', cl, u, u', ea, ea'⟩ := matchScore_template hT k K
  obtain ⟨tb, tb', clb, ub, ub', eb, eb'⟩ := matchScore_template hT k j
  rw [ea', eb'] at hbest
  rw [ea] at hpos
  rw [ea, eb] at hm
  obtain ⟨a, ha, a1, a2, a3⟩ := C108_accuracy chroma weights ta hc hN u
  obtain ⟨b, hb, b1, b2, b3⟩ := C108_accuracy chroma weights tb hc hN ub
  obtain ⟨a', ha', a1', a2', a3'⟩ := C108_accuracy chroma' weights ta' hc' (hl ▸ hN) u'
  obtain ⟨b', hb', b1', b2', b3'⟩ := C108_accuracy chroma' weights tb' hc' (hl ▸ hN) ub'
  rw [← hl] at a3' b3'
  rw [a1', b1', fin_le_fin] at hbest
  rw [a1, b1] at hm
  rw [a1] at hpos
  simp only [F32.val] at hm
  have hpos' : 1 / 2 ^ 30 ≤ a := by
    have e9 : fin (1 / 2 ^ 30) (by decide +kernel) ≤ (1e-9 : F32) := by decide +kernel
    exact (fin_lt_fin.1 (F32.lt_of_le_of_lt e9 hpos)).le
  have hNq : (chroma.length : ℚ) ≤ 2 ^ 16 := by exact_mod_cast hN
  have hN0 : (0 : ℚ) ≤ chroma.length := by positivity
  have hlt := margin_kept (e := (chroma.length + 32) / 2 ^ 22) 
    (by rw [div_le_div_iff₀ (by norm_num) (by norm_num)]; linarith)
    (by rw [div_le_div_iff₀ (by norm_num) (by norm_num)]; linarith)
    a2 b2 a3 b3 a3' b3' (exactScore_moved hmove cl hc0 weights hw0) (exactScore_moved hmove clb hc0 weights hw0)
    hpos' (_root_.le_trans hm (le_of_eq (by ring)))
  exact absurd hbest (not_le.2 hlt)

/-- the template of `K` matches the frames clearly better than every other of the same mode: by one part in 2^19 per frame,
plus 32 parts -/
def ClearBest (chroma : List (List F32)) (T : Templates) (weights : Option (List F32)) (K : Key) : Prop :=
  ValidKey K ∧ 1e-9 < matchScore chroma T weights K ∧
  ∀ j, ValidKey j → SameMode K j → j ≠ K →
    (matchScore chroma T weights j).val ≤ (matchScore chroma T weights K).val * (1 - (chroma.length + 32) / 2 ^ 19)

/-- **C108** (partial).  Full claim: moving the chroma up by `k` semitones moves the reported key up by `k` semitones.
Proved, for both built-in template families, up to 2^16 frames and any frame weights, when a major key `M` and a minor key
`m` match the frames clearly better than the other keys of their mode: the key reported for the frames is `M` or `m`, the
one reported for the transposed frames is `M` or `m` moved up by `k`; so if the two runs agree on the mode, the reported
key moves up by `k`.  Missing: ties and near-ties (`C108_violated`), and the choice between the two modes, which is always
a tie (`C59_violated`). -/
theorem C108_partial (ord ord' : List (Key × F32) → List (Key × F32)) (hord : ∀ l, (ord l).Perm l)
    (hord' : ∀ l, (ord' l).Perm l) (T : Templates) (hT : T ∈ [krumhanslKessler, temperley]) (k : ℕ)
    (chroma chroma' : List (List F32)) (weights : Option (List F32)) (hc : ChromaInput chroma weights)
    (hN : chroma.length ≤ 2 ^ 16) (hmove : List.Forall₂ (MovedUp k) chroma chroma') (r r' : Res)
    (h : detectKey ord chroma T weights = .ok r) (h' : detectKey ord' chroma' T weights = .ok r')
    (M m : ℕ) (hM : ClearBest chroma T weights (.major M)) (hm : ClearBest chroma T weights (.minor m)) :
    (r.key = .major M ∨ r.key = .minor m) ∧ (r'.key = .major ((M + k) % 12) ∨ r'.key = .minor ((m + k) % 12)) ∧
    (SameMode r.key r'.key → r'.key = keyUp k r.key) := by
  have e0 : ∀ K : Key, ValidKey K → keyUp 0 K = K := by
    intro K hK
    cases K with
    | major i => exact congrArg Key.major (Nat.mod_eq_of_lt hK)
    | minor i => exact congrArg Key.minor (Nat.mod_eq_of_lt hK)
  have hself : List.Forall₂ (MovedUp 0) chroma chroma := by
    apply List.forall₂_same.2
    intro c hcm
    have := (hc.rows c hcm).1
    exact ⟨this, this, fun s hs => by rw [Nat.add_zero, Nat.mod_eq_of_lt hs]⟩
  have h1 : r.key = .major M ∨ r.key = .minor m := by
    cases hk : r.key with
    | major i =>
      left; rw [← hk, ← e0 (.major M) hM.1]
      exact best_moves hord hT hc hN hself h (by rw [hk]; trivial) hM.2.1 hM.2.2
    | minor i =>
      right; rw [← hk, ← e0 (.minor m) hm.1]
      exact best_moves hord hT hc hN hself h (by rw [hk]; trivial) hm.2.1 hm.2.2
  have h2 : r'.key = keyUp k (.major M) ∨ r'.key = keyUp k (.minor m) := by
    cases hk : r'.key with
    | major i =>
      left; rw [← hk]
      exact best_moves hord' hT hc hN hmove h' (by rw [hk]; trivial) hM.2.1 hM.2.2
    | minor i =>
      right; rw [← hk]
      exact best_moves hord' hT hc hN hmove h' (by rw [hk]; trivial) hm.2.1 hm.2.2
  refine ⟨h1, h2, fun hs => ?_⟩
  rcases h1 with h1 | h1 <;> rcases h2 with h2 | h2 <;> rw [h1, h2] at hs <;> first | exact hs.elim | rw [h1, h2]

/-- non-vacuity: the notes of a C major chord, one frame, against the chord moved up by two semitones -/
example :
    let c : List F32 := [1, 0, 0, 0, 1, 0, 0, 1, 0, 0, 0, 0]
    let c' : List F32 := [0, 0, 1, 0, 0, 0, 1, 0, 0, 1, 0, 0]
    MovedUp 2 c c' ∧ (∀ x ∈ c, 0 ≤ x ∧ x ≤ 1) ∧
    (match detectKey id [c] krumhanslKessler none, detectKey id [c'] krumhanslKessler none with
      | .ok r, .ok r' => decide (r.key = .major 0 ∧ r'.key = .major 2)
      | _, _ => false) = true ∧
    (1e-9 < matchScore [c] krumhanslKessler none (.major 0) ∧
      ∀ i, i < 12 → i ≠ 0 → (matchScore [c] krumhanslKessler none (.major i)).val ≤
        (matchScore [c] krumhanslKessler none (.major 0)).val * (1 - (1 + 32) / 2 ^ 19)) ∧
    (1e-9 < matchScore [c] krumhanslKessler none (.minor 4) ∧
      ∀ i, i < 12 → i ≠ 4 → (matchScore [c] krumhanslKessler none (.minor i)).val ≤
        (matchScore [c] krumhanslKessler none (.minor 4)).val * (1 - (1 + 32) / 2 ^ 19)) := by
  decide +kernel

/-- **C108 violated**, for every hash seed: a chroma vector that is constant equals its own transposition, so the reported
key does not move. -/
theorem C108_violated (ord : List (Key × F32) → List (Key × F32)) (hord : ∀ l, (ord l).Perm l) (T : Templates)
    (hT : T ∈ [krumhanslKessler, temperley]) :
    ∃ r, detectKey ord [List.replicate 12 0.25] T none = .ok r ∧
      MovedUp 1 (List.replicate 12 0.25) (List.replicate 12 0.25) ∧ r.key ≠ keyUp 1 r.key := by
  have hU : UnitTemplates T := by
    rcases List.mem_cons.1 hT with rfl | h
    · exact unitTemplates_builtin.1
    · rw [List.mem_singleton.1 h]; exact unitTemplates_builtin.2
  obtain ⟨r, e, v, _⟩ := C60_total ord hord [List.replicate 12 0.25] none T
    ⟨by simp, by
      intro c hc; rw [List.mem_singleton.1 hc]
      exact ⟨by simp, fun x hx => by rw [(List.mem_replicate.1 hx).2]; decide +kernel⟩, by simp, by simp⟩ hU
  refine ⟨r, e, ⟨by simp, by simp, fun s hs => ?_⟩, ?_⟩
  · have : (s + 1) % 12 < 12 := Nat.mod_lt _ (by decide)
    simp only [List.getElem?_replicate, hs, this, if_true]
  · cases hk : r.key with
    | major i => rw [hk] at v; change i < 12 at v; intro h; injection h with h; omega
    | minor i => rw [hk] at v; change i < 12 at v; intro h; injection h with h; omega

end Verif.Props
