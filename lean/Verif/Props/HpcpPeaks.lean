/-
C79: a harmonic pitch-class profile is made of the in-band local maxima only, and of the strongest of them.
-/
import Verif.Props.Hpcp

namespace Verif.Props
open Verif F32 Chroma Hpcp

theorem peaksFrom_complete {g : Cfg} (hs : g.sr ≤ 2 ^ 64) (hf : 0 < g.fft) (hf' : g.fft ≤ 2 ^ 64) {fmin fmax : F32}
    {v : List F32} : ∀ (n i : ℕ) {j : ℕ}, i ≤ j → j < i + n → j ≤ 2 ^ 64 → InBand g fmin fmax j → PeakAt v j →
      (j, v.getD j 0) ∈ peaksFrom g.sr g.fft fmin fmax v n i := by
  intro n
  induction n with
  | zero => intro i j h1 h2; omega
  | succ n ih =>
    intro i j h1 h2 h3 hb hp
    unfold peaksFrom
    by_cases hij : i = j
    · subst hij
      rw [if_neg hb.1, if_neg hb.2, if_neg (not_or.2 hp)]
      exact List.mem_cons_self
    have hrec := ih (i + 1) (j := j) (by omega) (by omega) h3 hb hp
    have hm : binFreq g.sr g.fft i ≤ binFreq g.sr g.fft j := freq_mono hs hf hf' h3 h1
    split_ifs with a b c
    · exact hrec
    · exact absurd (F32.lt_of_lt_of_le b hm) hb.2
    · exact hrec
    · exact List.mem_cons_of_mem _ hrec

theorem peaksFrom_nodup {g : Cfg} {fmin fmax : F32} {v : List F32} : ∀ (n i : ℕ),
    ((peaksFrom g.sr g.fft fmin fmax v n i).map (·.1)).Nodup := by
  intro n
  induction n with
  | zero => intro i; exact List.nodup_nil
  | succ n ih =>
    intro i
    unfold peaksFrom
    split_ifs
    · exact ih _
    · exact List.nodup_nil
    · exact ih _
    · rw [List.map_cons, List.nodup_cons]
      refine ⟨fun h => ?_, ih _⟩
      obtain ⟨p, hp, e⟩ := List.mem_map.1 h
      have := (mem_peaksFrom n (i + 1) hp).1.1
      dsimp only at e
      omega

/-- specification: the curve whose local maxima count is the frame itself, or with whitening the frame divided by its
running mean -/
def Curve (g : Cfg) (frame : List F32) : List F32 := scoreCurve g.white g.bins frame

theorem curve_raw {g : Cfg} (h : g.white = false ∨ g.bins < 3) (frame : List F32) : Curve g frame = frame := by
  unfold Curve scoreCurve
  rw [if_neg]
  rcases h with h | h
  · simp [h]
  · simp [h]

theorem length_curve (g : Cfg) (frame : List F32) : (Curve g frame).length = frame.length := by
  unfold Curve scoreCurve
  split_ifs <;> simp

theorem curve_ne_nan {g : Cfg} {frame : List F32} (h : ∀ m ∈ frame, m ≠ nan) : ∀ m ∈ Curve g frame, m ≠ nan := by
  unfold Curve scoreCurve
  by_cases hc : (g.white && decide (3 ≤ g.bins)) = true
  · rw [if_pos hc]
    intro m hm
    obtain ⟨i, _, rfl⟩ := List.mem_map.1 hm
    exact F32.min_ne_nan_right (by decide +kernel)
  · rw [if_neg hc]; exact h

/-- **C79, composition.** For a band that contains something and a frame without NaN, a profile is the normalised sum of
the contributions of a list `B` of distinct bins, all of them local maxima of the curve inside the band; there are at most
`max(peaks_per_frame, 1)` of them, exactly that many unless every in-band local maximum is taken, and none that was left
out is above one that was taken.  A bin contributes its in-band multiples `h f0`, `h ≤ max(num_harmonics, 1)`, with weight
`m^p decay^(h-1) / h`, each spread over the nearest pitch class and its two neighbours. -/
theorem C79_peaks (M : Libm) (powi : F32 → ℕ → F32) (sel : ℕ → List (ℕ × F32) → List (ℕ × F32)) (hsel : TopK sel)
    (hpow : ∀ x p : F32, 0 ≤ x → 0.05 ≤ p → p ≤ 1 → M.powf x p ≠ nan)
    (g : Cfg) (hs : 0 < g.sr) (hs' : g.sr ≤ 2 ^ 64) (hf : 0 < g.fft) (hf' : g.fft ≤ 2 ^ 64) (hmp : g.magPower ≠ nan)
    (fminHz fmaxHz : F32) (frame : List F32) (hn : frame ≠ []) (hl : frame.length ≤ 2 ^ 64) (hm : ∀ m ∈ frame, m ≠ nan)
    (hb : F32.max fminHz 20 < F32.min fmaxHz (F32.ofNat g.sr / 2)) :
    ∃ B : List ℕ, B.Nodup ∧ B.length ≤ Nat.max g.peaks 1 ∧
      (∀ b ∈ B, 1 ≤ b ∧ b + 1 < frame.length ∧
        InBand g (F32.max fminHz 20) (F32.min fmaxHz (F32.ofNat g.sr / 2)) b ∧ PeakAt (Curve g frame) b) ∧
      (∀ j, 1 ≤ j → j + 1 < frame.length → InBand g (F32.max fminHz 20) (F32.min fmaxHz (F32.ofNat g.sr / 2)) j →
        PeakAt (Curve g frame) j → j ∈ B ∨
          B.length = Nat.max g.peaks 1 ∧ ∀ b ∈ B, (Curve g frame).getD j 0 ≤ (Curve g frame).getD b 0) ∧
      frameToHpcp M powi sel g fminHz fmaxHz frame = .ok (unitOrKeep (classSums (B.flatMap (contributions M powi g
        (F32.max fminHz 20) (F32.min fmaxHz (F32.ofNat g.sr / 2)) frame)))) := by
  have hfmin : (20 : F32) ≤ F32.max fminHz 20 := le_max_right (by decide +kernel)
  generalize hF : F32.min fmaxHz (F32.ofNat g.sr / 2) = fmax at *
  generalize hG : F32.max fminHz 20 = fmin at *
  have hfmn : fmin ≠ nan := ne_nan_right hfmin
  have hfmx : fmax ≠ nan := ne_nan_right' hb
  set P := framePeaks g fmin fmax frame with hP
  set k := Nat.min (Nat.max g.peaks 1) P.length with hk
  have hkP : k ≤ P.length := Nat.min_le_right _ _
  obtain ⟨rest, hperm, hlen, htop⟩ := hsel k P hkP
  have memP : ∀ p ∈ P, (1 ≤ p.1 ∧ p.1 + 1 < frame.length) ∧ InBand g fmin fmax p.1 ∧ PeakAt (Curve g frame) p.1 ∧
      p.2 = (Curve g frame).getD p.1 0 := by
    intro p hp
    obtain ⟨⟨a, b⟩, c⟩ := mem_peaksFrom _ _ hp
    exact ⟨⟨a, by omega⟩, c⟩
  have compP : ∀ j, 1 ≤ j → j + 1 < frame.length → InBand g fmin fmax j → PeakAt (Curve g frame) j →
      (j, (Curve g frame).getD j 0) ∈ P := by
    intro j h1 h2 h3 h4
    exact peaksFrom_complete hs' hf hf' _ _ h1 (by omega) (by omega) h3 h4
  have nnP : ∀ p ∈ P, p.2 ≠ nan := by
    intro p hp
    obtain ⟨⟨_, a⟩, _, _, e⟩ := memP p hp
    rw [e]
    exact curve_ne_nan hm _ (getD_mem' (by rw [length_curve]; omega))
  have nd : ((sel k P ++ rest).map (·.1)).Nodup := (hperm.map _).nodup_iff.2 (peaksFrom_nodup _ _)
  refine ⟨(sel k P).map (·.1), ?_, ?_, ?_, ?_, ?_⟩
  · rw [List.map_append] at nd
    exact nd.of_append_left
  · rw [List.length_map, hlen]; exact Nat.min_le_left _ _
  · intro b hb
    obtain ⟨p, hp, rfl⟩ := List.mem_map.1 hb
    obtain ⟨⟨a, a'⟩, c, d, _⟩ := memP p (hsel.mem hkP hp)
    exact ⟨a, a', c, d⟩
  · intro j h1 h2 h3 h4
    have hj := compP j h1 h2 h3 h4
    rcases List.mem_append.1 (hperm.symm.subset hj) with h | h
    · exact Or.inl (List.mem_map.2 ⟨_, h, rfl⟩)
    · right
      constructor
      · rw [List.length_map, hlen]
        have hr : 0 < rest.length := List.length_pos_of_mem h
        have := hperm.length_eq
        rw [List.length_append, hlen] at this
        have : k < P.length := by omega
        have hk' : k = min (Nat.max g.peaks 1) P.length := hk
        omega
      · intro b hb
        obtain ⟨p, hp, rfl⟩ := List.mem_map.1 hb
        have := htop nnP p hp _ h
        rw [(memP p (hsel.mem hkP hp)).2.2.2] at this
        exact this
  · unfold frameToHpcp
    rw [if_neg (by rw [not_or, not_or]; exact ⟨hn, by omega, by omega⟩)]
    dsimp only
    rw [hF, hG, if_neg (fun h => F32.lt_irrefl _ (F32.lt_of_lt_of_le hb h)), ← hP]
    by_cases he : P = []
    · rw [if_pos he]
      have : sel k P = [] := by
        apply List.eq_nil_of_length_eq_zero
        rw [hlen, hk, he]; exact Nat.min_zero _
      rw [this]
      show Except.ok zero12 = Except.ok (unitOrKeep (classSums []))
      decide +kernel
    · rw [if_neg he]
      show (sel k P).foldlM _ _ >>= _ = _
      rw [addPeaks_eq hfmn hfmx frame, List.flatMap_map, addAll_zero]
      · rfl
      · intro t ht
        obtain ⟨p, _, h⟩ := List.mem_flatMap.1 ht
        exact contributions_lt t h
      · intro p hp
        obtain ⟨⟨_, a'⟩, c, d, _⟩ := memP p (hsel.mem hkP hp)
        constructor
        · have hfn : binFreq g.sr g.fft p.1 ≠ nan := freq_ne_nan hs' hf hf' (by omega)
          exact F32.lt_of_lt_of_le (by decide +kernel) (F32.le_trans hfmin (F32.le_of_not_lt hfmn hfn c.1))
        · obtain ⟨q0, q1⟩ := clamp_mem hmp (show (0.05 : F32) ≤ 1 by decide +kernel)
          exact hpow _ _ (le_max_right (by decide +kernel)) q0 q1

theorem peaksFrom_congr {g : Cfg} {fmin fmax : F32} {v w : List F32} : ∀ (n i : ℕ),
    (∀ j, i ≤ j → j < i + n → InBand g fmin fmax j → (PeakAt v j ↔ PeakAt w j) ∧ (PeakAt v j → v.getD j 0 = w.getD j 0)) →
    peaksFrom g.sr g.fft fmin fmax v n i = peaksFrom g.sr g.fft fmin fmax w n i := by
  intro n
  induction n with
  | zero => intro i _; rfl
  | succ n ih =>
    intro i h
    have hrec := ih (i + 1) (fun j h1 h2 => h j (by omega) (by omega))
    unfold peaksFrom
    by_cases a : binFreq g.sr g.fft i < fmin
    · rw [if_pos a, if_pos a, hrec]
    by_cases b : fmax < binFreq g.sr g.fft i
    · rw [if_neg a, if_neg a, if_pos b, if_pos b]
    obtain ⟨h1, h2⟩ := h i (le_refl _) (by omega) ⟨a, b⟩
    rw [if_neg a, if_neg a, if_neg b, if_neg b]
    by_cases c : PeakAt v i
    · rw [if_neg (not_or.2 c), if_neg (not_or.2 (h1.1 c)), hrec, h2 c]
    · have c' : ¬ PeakAt w i := fun hh => c (h1.2 hh)
      rw [if_pos (by by_contra hc; exact c (not_or.1 hc)), if_pos (by by_contra hc; exact c' (not_or.1 hc)), hrec]

theorem foldlM_frame {M : Libm} {powi : F32 → ℕ → F32} {g : Cfg} {fmin fmax : F32} {a b : List F32} :
    ∀ (ps : List (ℕ × F32)) (c : List F32), (∀ p ∈ ps, a.getD p.1 0 = b.getD p.1 0) →
      ps.foldlM (addPeak M powi g fmin fmax a) c = ps.foldlM (addPeak M powi g fmin fmax b) c := by
  intro ps
  induction ps with
  | nil => intro c _; rfl
  | cons p ps ih =>
    intro c h
    rw [List.foldlM_cons, List.foldlM_cons]
    have e : addPeak M powi g fmin fmax a c p = addPeak M powi g fmin fmax b c p := by
      unfold addPeak
      rw [h p (by simp)]
    rw [e]
    congr 1
    funext c'
    exact ih c' (fun q hq => h q (by simp [hq]))

/-- **C79, nothing else counts.** Without whitening, two frames of one length that have the same local maxima inside the
band, with the same magnitudes there, get the same profile: the floor between the peaks, their slopes and everything
outside the band have no influence. -/
theorem C79_only_peaks (M : Libm) (powi : F32 → ℕ → F32) (sel : ℕ → List (ℕ × F32) → List (ℕ × F32)) (hsel : TopK sel)
    (g : Cfg) (hw : g.white = false) (fminHz fmaxHz : F32) (a b : List F32) (hl : a.length = b.length)
    (h : ∀ j, 1 ≤ j → j + 1 < a.length → InBand g (F32.max fminHz 20) (F32.min fmaxHz (F32.ofNat g.sr / 2)) j →
      (PeakAt a j ↔ PeakAt b j) ∧ (PeakAt a j → a.getD j 0 = b.getD j 0)) :
    frameToHpcp M powi sel g fminHz fmaxHz a = frameToHpcp M powi sel g fminHz fmaxHz b := by
  unfold frameToHpcp
  by_cases h1 : a = [] ∨ g.sr = 0 ∨ g.fft = 0
  · have h1' : b = [] ∨ g.sr = 0 ∨ g.fft = 0 := by
      rcases h1 with h | h
      · left; apply List.eq_nil_of_length_eq_zero; rw [← hl, h]; rfl
      · exact Or.inr h
    rw [if_pos h1, if_pos h1']
  have h1' : ¬ (b = [] ∨ g.sr = 0 ∨ g.fft = 0) := by
    intro hh
    apply h1
    rcases hh with h | h
    · left; apply List.eq_nil_of_length_eq_zero; rw [hl, h]; rfl
    · exact Or.inr h
  rw [if_neg h1, if_neg h1']
  dsimp only
  generalize F32.min fmaxHz (F32.ofNat g.sr / 2) = fmax at *
  generalize F32.max fminHz 20 = fmin at *
  have ea : scoreCurve g.white g.bins a = a := curve_raw (Or.inl hw) a
  have eb : scoreCurve g.white g.bins b = b := curve_raw (Or.inl hw) b
  have hP : framePeaks g fmin fmax a = framePeaks g fmin fmax b := by
    unfold framePeaks
    rw [ea, eb, ← hl]
    exact peaksFrom_congr _ _ (fun j h2 h3 => h j h2 (by omega))
  rw [← hP]
  by_cases h2 : fmax ≤ fmin
  · rw [if_pos h2, if_pos h2]
  rw [if_neg h2, if_neg h2]
  by_cases h3 : framePeaks g fmin fmax a = []
  · rw [if_pos h3, if_pos h3]
  rw [if_neg h3, if_neg h3, foldlM_frame]
  intro p hp
  have := hsel.mem (Nat.min_le_right _ _) hp
  unfold framePeaks at this
  rw [ea] at this
  obtain ⟨⟨q1, q2⟩, q3, q4, _⟩ := mem_peaksFrom _ _ this
  exact (h p.1 q1 (by omega) q3).2 q4

/-! ### One peak -/

theorem mul_ofNat_one {x : F32} (h : x.isFinite = true) : x * F32.ofNat 1 = x := by
  obtain ⟨v, hv, rfl⟩ := isFinite_iff.1 h
  rw [ofNat_one, one_def, mul_fin, _root_.mul_one, rnd_val hv]

theorem contributions_one {M : Libm} {powi : F32 → ℕ → F32} {g : Cfg} {fmin fmax : F32} {frame : List F32} {b : ℕ}
    (hh : g.harmonics ≤ 1) (hp : ∀ x, powi x 0 = 1) (hbf : (binFreq g.sr g.fft b).isFinite = true)
    (h1 : fmin ≤ binFreq g.sr g.fft b) (h2 : binFreq g.sr g.fft b ≤ fmax)
    (hw : 0 < M.powf (F32.max (frame.getD b 0) 0) (F32.clamp g.magPower 0.05 1))
    (hwf : (M.powf (F32.max (frame.getD b 0) 0) (F32.clamp g.magPower 0.05 1)).isFinite = true) :
    contributions M powi g fmin fmax frame b = spread M g.sigma (semitone M (binFreq g.sr g.fft b) g.tuning)
      (M.powf (F32.max (frame.getD b 0) 0) (F32.clamp g.magPower 0.05 1)) := by
  unfold contributions
  dsimp only
  rw [if_pos hw]
  have : Nat.max g.harmonics 1 = 1 := Nat.max_eq_right hh
  rw [this]
  unfold partials
  rw [show List.range' 1 1 = [1] from rfl, List.filter_cons_of_pos (by rw [mul_ofNat_one hbf]; simp [h1, h2]),
    List.filter_nil, List.flatMap_cons, List.flatMap_nil, List.append_nil, mul_ofNat_one hbf, hp, ofNat_one]
  have : (1 : F32) / 1 = F32.ofNat 1 := by decide +kernel
  rw [this, mul_ofNat_one hwf]

/-- **C79, one peak.** A frame with one local maximum inside the band, of audible size and with one harmonic, gives a unit
profile whose largest entry is at the pitch class nearest to `12 log2(f / 440) + 57 - tuning`, at least a quarter, and which
is zero except at this class and its two neighbours -- whatever the other magnitudes are. -/
theorem C79_tone (M : Libm) (hM : Sane M) (hE : SaneExp M) (powi : F32 → ℕ → F32) (hpi : ∀ x, powi x 0 = 1)
    (sel : ℕ → List (ℕ × F32) → List (ℕ × F32)) (hsel : TopK sel)
    (hpow : ∀ x p : F32, 0 ≤ x → 0.05 ≤ p → p ≤ 1 → M.powf x p ≠ nan)
    (g : Cfg) (hs : 0 < g.sr) (hs' : g.sr ≤ 2 ^ 64) (hf : 0 < g.fft) (hf' : g.fft ≤ 2 ^ 64) (hmp : g.magPower ≠ nan)
    (hh : g.harmonics ≤ 1) (hsg : 0.1 ≤ g.sigma) (ht : g.tuning.isFinite = true) (hw : g.white = false)
    (fminHz fmaxHz : F32) (frame : List F32) (hl : frame.length ≤ 2 ^ 64) (hm : ∀ m ∈ frame, m ≠ nan)
    (b : ℕ) (hb1 : 1 ≤ b) (hb2 : b + 1 < frame.length)
    (f : F32) (hfr : f = F32.ofNat b * (F32.ofNat g.sr / F32.ofNat g.fft))
    (hlo : F32.max fminHz 20 ≤ f) (hhi : f ≤ F32.min fmaxHz (F32.ofNat g.sr / 2))
    (hband : F32.max fminHz 20 < F32.min fmaxHz (F32.ofNat g.sr / 2))
    (hpk : frame.getD (b - 1) 0 < frame.getD b 0 ∧ frame.getD (b + 1) 0 ≤ frame.getD b 0)
    (huniq : ∀ j, 1 ≤ j → j + 1 < frame.length → j ≠ b → F32.max fminHz 20 ≤ F32.ofNat j * (F32.ofNat g.sr / F32.ofNat g.fft) →
      F32.ofNat j * (F32.ofNat g.sr / F32.ofNat g.fft) ≤ F32.min fmaxHz (F32.ofNat g.sr / 2) →
      ¬ (frame.getD (j - 1) 0 < frame.getD j 0 ∧ frame.getD (j + 1) 0 ≤ frame.getD j 0))
    (hp0 : rnd (pow2 (-10)) ≤ M.powf (F32.max (frame.getD b 0) 0) (F32.clamp g.magPower 0.05 1))
    (hp1 : M.powf (F32.max (frame.getD b 0) 0) (F32.clamp g.magPower 0.05 1) ≤ rnd (pow2 50)) :
    ∃ c k s, frameToHpcp M powi sel g fminHz fmaxHz frame = .ok c ∧ c.length = 12 ∧ k < 12 ∧
      12 * M.log2 (f / 440) + 57 - g.tuning = s ∧ NearestClass s.val k (1 / 2 ^ 19) ∧
      0.25 ≤ c.getD k 0 ∧ (∀ j < 12, 0 ≤ c.getD j 0 ∧ c.getD j 0 ≤ c.getD k 0) ∧
      |exactSq c - 1| ≤ 18 / 2 ^ 22 ∧
      ∀ j < 12, 1 < (j + 12 - k) % 12 → 1 < (k + 12 - j) % 12 → c.getD j 0 = 0 := by
  have hne : frame ≠ [] := by intro h; rw [h] at hb2; simp at hb2
  obtain ⟨B, nd, _, hB, hall, he⟩ := C79_peaks M powi sel hsel hpow g hs hs' hf hf' hmp fminHz fmaxHz frame hne hl hm hband
  rw [curve_raw (Or.inl hw)] at hB hall
  have nn : ∀ j, frame.getD j 0 ≠ nan := by
    intro j
    by_cases hi : j < frame.length
    · exact hm _ (getD_mem' hi)
    · rw [List.getD_eq_getElem?_getD, List.getElem?_eq_none (by omega), Option.getD_none]
      decide +kernel
  have hfmin : (20 : F32) ≤ F32.max fminHz 20 := le_max_right (by decide +kernel)
  have hnq := nyq_le hs'
  have hfmax : F32.min fmaxHz (F32.ofNat g.sr / 2) ≤ rnd (pow2 63) := F32.le_trans (F32.min_le_right (ne_nan_left hnq)) hnq
  have hbf : (binFreq g.sr g.fft b).isFinite = true :=
    isFinite_of_between (lo := 20) (hi := rnd (pow2 63)) (by decide +kernel) (by decide +kernel)
      (by rw [show binFreq g.sr g.fft b = f from hfr.symm]; exact F32.le_trans hfmin hlo)
      (by rw [show binFreq g.sr g.fft b = f from hfr.symm]; exact F32.le_trans hhi hfmax)
  have hsemi := semitone_finite' hM (f := f) (tuning := g.tuning) (F32.le_trans hfmin hlo) (F32.le_trans hhi hfmax) ht
  have hw0 := F32.lt_of_lt_of_le (show (0 : F32) < rnd (pow2 (-10)) by decide +kernel) hp0
  have hwf : (M.powf (F32.max (frame.getD b 0) 0) (F32.clamp g.magPower 0.05 1)).isFinite = true :=
    isFinite_of_between (by decide +kernel) (by decide +kernel) hp0 hp1
  generalize hF : F32.min fmaxHz (F32.ofNat g.sr / 2) = fmax at *
  generalize hG : F32.max fminHz 20 = fmin at *
  have hbb : binFreq g.sr g.fft b = f := hfr.symm
  have onlyb : ∀ x ∈ B, x = b := by
    intro x hx
    obtain ⟨x1, x2, ⟨x3, x4⟩, x5, x6⟩ := hB x hx
    by_contra hxb
    have hfn : binFreq g.sr g.fft x ≠ nan := freq_ne_nan hs' hf hf' (by omega)
    exact huniq x x1 x2 hxb (F32.le_of_not_lt (ne_nan_right hfmin) hfn x3) (F32.le_of_not_lt hfn (ne_nan_left hfmax) x4)
      ⟨F32.lt_of_not_le (nn _) (nn _) x5, F32.le_of_not_lt (nn _) (nn _) x6⟩
  have hBb : B = [b] := by
    have hne' : B ≠ [] := by
      intro hB0
      rcases hall b hb1 hb2 ⟨by rw [hbb]; exact F32.not_lt_of_le hlo, by rw [hbb]; exact F32.not_lt_of_le hhi⟩
        ⟨fun h => F32.lt_irrefl _ (F32.lt_of_lt_of_le hpk.1 h), F32.not_lt_of_le hpk.2⟩ with h | ⟨h, _⟩
      · rw [hB0] at h; simp at h
      · rw [hB0] at h
        have : 1 ≤ Nat.max g.peaks 1 := Nat.le_max_right _ _
        simp at h
        omega
    cases B with
    | nil => exact absurd rfl hne'
    | cons x B =>
      have hx := onlyb x (by simp)
      subst hx
      cases B with
      | nil => rfl
      | cons y B =>
        have hy := onlyb y (by simp)
        subst hy
        simp at nd
  rw [hBb, List.flatMap_cons, List.flatMap_nil, List.append_nil,
    contributions_one hh hpi hbf (by rw [hbb]; exact hlo) (by rw [hbb]; exact hhi) hw0 hwf, hbb] at he
  obtain ⟨s, hsg', es⟩ := isFinite_iff.1 hsemi
  obtain ⟨c, k, e, hT, hb, hnear⟩ := tone_soft hM hE hsg (hx := hsg') hp0 hp1
  rw [softStep_eq, addAll_zero spread_lt] at e
  rw [es] at he
  injection e with e
  rw [e] at he
  obtain ⟨⟨u1, u2, u3, u4, u5⟩, u6⟩ := tone_unit hT hb
  exact ⟨unitOrKeep c, k, fin s hsg', he, u1, u2, es, hnear, u3, u4, u6, u5⟩

/-! ### A selection, and frames -/

/-- the selection by sorting -/
def topSel (k : ℕ) (l : List (ℕ × F32)) : List (ℕ × F32) := (sortDesc (·.2) l).take k

theorem topSel_topK : TopK topSel := by
  intro k l hk
  refine ⟨(sortDesc (·.2) l).drop k, ?_, ?_, ?_⟩
  · unfold topSel
    rw [List.take_append_drop]
    exact sortDesc_perm l
  · unfold topSel
    rw [List.length_take, length_sortDesc]
    omega
  · intro h p hp q hq
    have hs := sortDesc_pairwise (key := fun x : ℕ × F32 => x.2) h
    rw [← List.take_append_drop k (sortDesc (fun x : ℕ × F32 => x.2) l), List.pairwise_append] at hs
    exact hs.2.2 p hp q hq

/-- settings for the examples: bins of 110 Hz, two peaks, two harmonics -/
def demoCfg : Cfg := ⟨1760, 16, 0.5, 0, 2, 2, 0.5, 1, false, 9⟩

/-- a frame with three local maxima, at 220, 440 and 660 Hz -/
def demoFrame : List F32 := [0, 1, 4, 1, 8, 2, 3, 0, 0]

/-- the powers of one half, standing for `powi` -/
def halfPow (x : F32) : ℕ → F32
  | 0 => 1
  | n + 1 => halfPow x n * F32.min x 1

/-- the two strongest are taken -/
example : topSel 2 (framePeaks demoCfg 20 880 demoFrame) = [(4, 8), (2, 4)] ∧
    framePeaks demoCfg 20 880 demoFrame = [(2, 4), (4, 8), (6, 3)] := by decide +kernel

/-- the hypotheses of `C79_peaks` -/
example : TopK topSel ∧ (∀ x p : F32, 0 ≤ x → 0.05 ≤ p → p ≤ 1 → toneLibm.powf x p ≠ nan) ∧ demoCfg.magPower ≠ nan ∧
    demoFrame ≠ [] ∧ (∀ m ∈ demoFrame, m ≠ nan) ∧ F32.max 20 20 < F32.min 2000 (F32.ofNat demoCfg.sr / 2) :=
  ⟨topSel_topK, fun x p _ _ _ => F32.min_ne_nan_right (by decide +kernel), by decide +kernel, by decide +kernel,
    by decide +kernel, by decide +kernel⟩

/-- another frame with the same peaks, other slopes, and another peak outside the band -/
example : frameToHpcp toneLibm halfPow topSel { demoCfg with sr := 3520, fft := 32 } 100 700 [5, 1, 4, 1, 8, 2, 3, 0, 0, 7, 0] =
      frameToHpcp toneLibm halfPow topSel { demoCfg with sr := 3520, fft := 32 } 100 700 [0, 0, 4, 3, 8, 0, 3, 2, 0, 2, 0] ∧
    (match frameToHpcp toneLibm halfPow topSel { demoCfg with sr := 3520, fft := 32 } 100 700 [5, 1, 4, 1, 8, 2, 3, 0, 0, 7, 0] with
      | .ok c => c.getD 9 0 | _ => 0) ≠ 0 := by
  decide +kernel

/-- a peak at 440 Hz above a floor: class 9 -/
example : (match frameToHpcp toneLibm halfPow topSel { demoCfg with harmonics := 1 } 20 2000 [2, 1, 1, 1, 8, 3, 2, 1, 1] with
      | .ok c => (c.getD 9 0, c.getD 8 0, c.getD 0 0) | _ => (0, 0, 1)) =
    (match frameToChroma toneLibm 1760 16 true 0.5 0 [0, 0, 0, 0, 8, 0, 0, 0, 0] with
      | .ok c => (c.getD 9 0, c.getD 8 0, c.getD 0 0) | _ => (0, 0, 2)) := by decide +kernel

/-- the library of the examples is admissible for `C78_range_partial` -/
theorem powSane_demo : PowSane toneLibm halfPow where
  powf_range := by
    intro x p h0 h1 _ _
    show 0 ≤ F32.min x 1 ∧ F32.min x 1 ≤ _
    exact ⟨F32.le_min h0 (by decide +kernel), F32.le_trans (F32.min_le_right (by decide +kernel)) (by decide +kernel)⟩
  powf_zero := by intro p _ _; show F32.min 0 1 = 0; decide +kernel
  powi_range := by
    intro x n h0 h1
    induction n with
    | zero => exact (by decide +kernel : (0 : F32) ≤ 1 ∧ (1 : F32) ≤ 1)
    | succ n ih =>
      have hm := F32.le_min h0 (show (0 : F32) ≤ 1 by decide +kernel)
      have hm1 : F32.min x 1 ≤ 1 := F32.min_le_right (by decide +kernel)
      exact unit_mul ih.1 ih.2 hm hm1

/-- the hypotheses of `C78_range_partial`, with a NaN magnitude -/
example : Settings demoCfg ∧ Sane toneLibm ∧ PowSane toneLibm halfPow ∧
    (∀ m ∈ [0, 1, 4, nan, (8 : F32), -2], m = nan ∨ m ≤ rnd (pow2 76)) :=
  ⟨⟨by decide +kernel, by decide +kernel, by decide +kernel, by decide +kernel, by decide +kernel⟩, sane_tone, powSane_demo,
    by decide +kernel⟩

/-! ### Where the range claim fails -/

theorem unit_inf {c : List F32} (h : ∀ x ∈ c, 0 ≤ x) (hi : inf false ∈ c) : nan ∈ unitOrKeep c := by
  have hs : inf false ≤ F32.sum (c.map (fun x => x * x)) := by
    have := le_sum (l := c.map (fun x => x * x)) (x := inf false * inf false) (fun y hy => by
      obtain ⟨x, hx, rfl⟩ := List.mem_map.1 hy
      rcases nonneg_cases (h x hx) with rfl | ⟨v, hv, rfl, hv0⟩
      · decide +kernel
      · rw [mul_fin]; exact rnd_nonneg (by positivity)) (List.mem_map_of_mem hi)
    exact this
  have hsi : F32.sum (c.map (fun x => x * x)) = inf false := by
    rcases nonneg_cases (F32.le_trans (by decide +kernel) hs) with e | ⟨v, hv, e, _⟩
    · exact e
    · rw [e] at hs; exact absurd hs (by simp)
  have hn : norm2 c = inf false := by unfold norm2; rw [hsi]; rfl
  unfold unitOrKeep
  rw [hn, if_pos (by decide +kernel)]
  exact List.mem_map.2 ⟨inf false, hi, by decide⟩

/-- **C78, violated: a loud finite tone gives a NaN profile.** One bin of magnitude `3e38` at 440 Hz, magnitude power 1, two
harmonics without decay: the pitch class sums to infinity and the normalised profile contains NaN. -/
theorem C78_violated (M : Libm) (powi : F32 → ℕ → F32) (sel : ℕ → List (ℕ × F32) → List (ℕ × F32)) (hsel : TopK sel)
    (hpow : ∀ x p : F32, 0 ≤ x → 0.05 ≤ p → p ≤ 1 → M.powf x p ≠ nan) (h1 : M.powf 3e38 1 = 3e38)
    (hpi : ∀ n, powi 1 n = 1) (hl1 : M.log2 1 = 0) (hl2 : M.log2 2 = 1) (he : M.exp 0 = 1) (he2 : 0 ≤ M.exp (-2)) (he2' : M.exp (-2) ≤ 1) :
    ∃ c, frameToHpcp M powi sel ⟨1760, 4, 0.5, 0, 24, 2, 1, 1, false, 0⟩ 100 5000 [0, 3e38, 0] = .ok c ∧ nan ∈ c := by
  obtain ⟨B, nd, _, hB, hall, hres⟩ := C79_peaks M powi sel hsel hpow ⟨1760, 4, 0.5, 0, 24, 2, 1, 1, false, 0⟩
    (by norm_num) (by norm_num) (by norm_num) (by norm_num) (by decide +kernel) 100 5000 [0, 3e38, 0] (by simp) (by norm_num)
    (by decide +kernel) (by decide +kernel)
  have hBb : B = [1] := by
    have onlyb : ∀ x ∈ B, x = 1 := by
      intro x hx
      obtain ⟨x1, x2, _⟩ := hB x hx
      simp at x2
      omega
    have hne' : B ≠ [] := by
      intro hB0
      rcases hall 1 (le_refl _) (by simp) (by unfold InBand; decide +kernel) (by
        rw [curve_raw (Or.inl rfl)]; unfold PeakAt; decide +kernel) with h | ⟨h, _⟩
      · rw [hB0] at h; simp at h
      · rw [hB0] at h; simp at h
    cases B with
    | nil => exact absurd rfl hne'
    | cons x B =>
      have hx := onlyb x (by simp)
      subst hx
      cases B with
      | nil => rfl
      | cons y B =>
        have hy := onlyb y (by simp)
        subst hy
        simp at nd
  rw [hBb, List.flatMap_cons, List.flatMap_nil, List.append_nil] at hres
  refine ⟨_, hres, ?_⟩
  have e1 : contributions M powi ⟨1760, 4, 0.5, 0, 24, 2, 1, 1, false, 0⟩ (F32.max 100 20) (F32.min 5000 (F32.ofNat 1760 / 2))
      [0, 3e38, 0] 1 = [(8, 3e38 * M.exp (-2)), (9, 3e38), (10, 3e38 * M.exp (-2)),
        (8, 1.5e38 * M.exp (-2)), (9, 1.5e38), (10, 1.5e38 * M.exp (-2))] := by
    unfold contributions
    dsimp only
    rw [show F32.max (([0, 3e38, 0] : List F32).getD 1 0) 0 = 3e38 by decide +kernel,
      show F32.clamp 1 0.05 1 = 1 by decide +kernel, h1, if_pos (by decide +kernel)]
    unfold partials
    rw [show (List.range' 1 (Nat.max 2 1)).filter (fun h => decide (F32.max 100 20 ≤ binFreq 1760 4 1 * F32.ofNat h ∧
      binFreq 1760 4 1 * F32.ofNat h ≤ F32.min 5000 (F32.ofNat 1760 / 2))) = [1, 2] by decide +kernel]
    rw [List.flatMap_cons, List.flatMap_cons, List.flatMap_nil]
    dsimp only
    rw [show F32.clamp 1 0 1 = 1 by decide +kernel, hpi, hpi]
    unfold semitone
    rw [show binFreq 1760 4 1 * F32.ofNat 1 / A4 = 1 by decide +kernel, show binFreq 1760 4 1 * F32.ofNat 2 / A4 = 2 by decide +kernel,
      hl1, hl2, show (12 : F32) * 0 + SEMI - 0 = 57 by decide +kernel, show (12 : F32) * 1 + SEMI - 0 = 69 by decide +kernel]
    have sp : ∀ x : F32, (x = 57 ∨ x = 69) → ∀ v, spread M 0.5 x v = [(8, v * M.exp (-2)), (9, v * M.exp 0), (10, v * M.exp (-2))] := by
      intro x hx v
      have hr : F32.remEuclid x 12 = 9 := by rcases hx with rfl | rfl <;> decide +kernel
      unfold spread
      rw [hr, show primaryClass 9 = 9 by decide +kernel]
      simp only [List.map_cons, List.map_nil]
      have w : ∀ t : ℤ, softWeight M 0.5 9 t = M.exp (-(F32.min (9 - F32.ofInt t).abs (12 - (9 - F32.ofInt t).abs)) *
          F32.min (9 - F32.ofInt t).abs (12 - (9 - F32.ofInt t).abs) / (2 * F32.max 0.5 1e-6 * F32.max 0.5 1e-6)) := fun _ => rfl
      rw [w, w, w]
      congr 1
      · rw [show -(F32.min (9 - F32.ofInt ((9 + -1) % 12)).abs (12 - (9 - F32.ofInt ((9 + -1) % 12)).abs)) *
          F32.min (9 - F32.ofInt ((9 + -1) % 12)).abs (12 - (9 - F32.ofInt ((9 + -1) % 12)).abs) /
          (2 * F32.max 0.5 1e-6 * F32.max 0.5 1e-6) = -2 by decide +kernel]; rfl
      congr 1
      · rw [show -(F32.min (9 - F32.ofInt ((9 + 0) % 12)).abs (12 - (9 - F32.ofInt ((9 + 0) % 12)).abs)) *
          F32.min (9 - F32.ofInt ((9 + 0) % 12)).abs (12 - (9 - F32.ofInt ((9 + 0) % 12)).abs) /
          (2 * F32.max 0.5 1e-6 * F32.max 0.5 1e-6) = 0 by decide +kernel]; rfl
      congr 1
      · rw [show -(F32.min (9 - F32.ofInt ((9 + 1) % 12)).abs (12 - (9 - F32.ofInt ((9 + 1) % 12)).abs)) *
          F32.min (9 - F32.ofInt ((9 + 1) % 12)).abs (12 - (9 - F32.ofInt ((9 + 1) % 12)).abs) /
          (2 * F32.max 0.5 1e-6 * F32.max 0.5 1e-6) = -2 by decide +kernel]; rfl
    rw [sp _ (Or.inl rfl), sp _ (Or.inr rfl), he, show (3e38 : F32) * (1 / F32.ofNat 1) = 3e38 by decide +kernel,
      show (3e38 : F32) * (1 / F32.ofNat 2) = 1.5e38 by decide +kernel, show (3e38 : F32) * 1 = 3e38 by decide +kernel,
      show (1.5e38 : F32) * 1 = 1.5e38 by decide +kernel]
    rfl
  rw [e1]
  have e2 : classSums [(8, 3e38 * M.exp (-2)), (9, 3e38), (10, 3e38 * M.exp (-2)),
        (8, 1.5e38 * M.exp (-2)), (9, 1.5e38), (10, 1.5e38 * M.exp (-2))] =
      [0, 0, 0, 0, 0, 0, 0, 0, 0 + 3e38 * M.exp (-2) + 1.5e38 * M.exp (-2), inf false,
        0 + 3e38 * M.exp (-2) + 1.5e38 * M.exp (-2), 0] := by
    show [0, 0, 0, 0, 0, 0, 0, 0, 0 + 3e38 * M.exp (-2) + 1.5e38 * M.exp (-2), 0 + 3e38 + 1.5e38,
        0 + 3e38 * M.exp (-2) + 1.5e38 * M.exp (-2), 0] = _
    rw [show (0 : F32) + 3e38 + 1.5e38 = inf false by decide +kernel]
  rw [e2]
  have hx : 0 ≤ 0 + 3e38 * M.exp (-2) + 1.5e38 * M.exp (-2) := by
    have m1 : ∀ v : F32, 0 ≤ v → v.isFinite = true → 0 ≤ v * M.exp (-2) := fun v h hf =>
      F32.mul_nonneg h he2 (mul_fin_ne_nan hf (isFinite_of_unit he2 he2'))
    exact F32.add_nonneg (F32.add_nonneg (by decide +kernel) (m1 _ (by decide +kernel) (by decide +kernel)))
      (m1 _ (by decide +kernel) (by decide +kernel))
  refine unit_inf (fun x hxm => ?_) (by simp)
  simp only [List.mem_cons, List.not_mem_nil, or_false] at hxm
  rcases hxm with h | h | h | h | h | h | h | h | h | h | h | h <;> rw [h] <;> first | exact hx | decide +kernel

end Verif.Props
