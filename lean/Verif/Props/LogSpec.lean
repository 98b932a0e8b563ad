/-
C81: the log-frequency spectrogram.
-/
import Verif.Props.Tuning

namespace Verif.Props
open Verif F32 Chroma Hpcp

/-! ### Specification -/

/-- specification: the semitone bins that the frequency at position `x` feeds, out of `n` -/
def logTargets (n : ℕ) (x : F32) : List ℕ :=
  let lo := (F32.floor x).toUsize
  let hi := Nat.min (F32.ceil x).toUsize (n - 1)
  if lo < n then (if hi ≠ lo ∧ hi < n then [lo, hi] else [lo]) else []

/-- specification: what the lower (`k = lo`) and the upper bin get -/
def logShare (x m : F32) (k : ℕ) : F32 :=
  if k = (F32.floor x).toUsize then m * (1 - (x - F32.ofNat (F32.floor x).toUsize)) else m * (x - F32.ofNat (F32.floor x).toUsize)

/-- specification: the position of bin `i` counted in semitones from the first output bin -/
def logPos (M : Libm) (sr fft : ℕ) (smin : ℤ) (i : ℕ) : F32 := 12 * M.log2 (F32.ofNat i * (F32.ofNat sr / F32.ofNat fft) / 440) + 57 - F32.ofInt smin

/-- specification: the bin is inside the band and below half the sample rate -/
def LogBand (sr fft : ℕ) (fmin fmax : F32) (i : ℕ) : Prop :=
  ¬ (binFreq sr fft i < fmin ∨ fmax ≤ binFreq sr fft i ∨ F32.ofNat sr / 2 ≤ binFreq sr fft i)

instance (sr fft : ℕ) (fmin fmax : F32) (i : ℕ) : Decidable (LogBand sr fft fmin fmax i) := by unfold LogBand; infer_instance

/-- specification: the contributions to output bin `k` -/
def logCell (M : Libm) (sr fft : ℕ) (fmin fmax : F32) (smin : ℤ) (n k i : ℕ) (frame : List F32) : List F32 :=
  ((frame.zipIdx i).filter (fun p => decide (¬ p.1 ≤ 0 ∧ LogBand sr fft fmin fmax p.2 ∧ k ∈ logTargets n (logPos M sr fft smin p.2)))).map
    (fun p => logShare (logPos M sr fft smin p.2) p.1 k)

theorem length_addLog (n : ℕ) (x m : F32) (v : List F32) : (addLog n x m v).length = v.length := by
  unfold addLog
  dsimp only
  split_ifs <;> simp

theorem addLog_get {n : ℕ} {x m : F32} {v : List F32} (hv : v.length = n) {k : ℕ} (_ : k < n) :
    (addLog n x m v).getD k 0 = if k ∈ logTargets n x then v.getD k 0 + logShare x m k else v.getD k 0 := by
  unfold addLog logTargets logShare
  dsimp only
  generalize (F32.floor x).toUsize = lo
  generalize Nat.min (F32.ceil x).toUsize (n - 1) = hi
  by_cases h1 : lo < n
  · rw [if_pos h1, if_pos h1]
    by_cases h2 : hi ≠ lo ∧ hi < n
    · rw [if_pos h2, if_pos h2, modify_get, modify_get, List.length_modify, hv]
      simp only [List.mem_cons, List.not_mem_nil, or_false]
      by_cases e1 : k = lo
      · subst e1
        rw [if_neg (fun h => h2.1 h.1), if_pos ⟨rfl, h1⟩, if_pos (Or.inl rfl), if_pos rfl]
      · by_cases e2 : k = hi
        · subst e2
          rw [if_pos ⟨rfl, h2.2⟩, if_neg (fun h => h2.1 h.1.symm), if_pos (Or.inr rfl), if_neg e1]
        · rw [if_neg (fun h => e2 h.1.symm), if_neg (fun h => e1 h.1.symm), if_neg (not_or.2 ⟨e1, e2⟩)]
    · rw [if_neg h2, if_neg h2, modify_get, hv]
      simp only [List.mem_cons, List.not_mem_nil, or_false]
      by_cases e1 : k = lo
      · subst e1
        rw [if_pos ⟨rfl, h1⟩, if_pos rfl, if_pos rfl]
      · rw [if_neg (fun h => e1 h.1.symm), if_neg e1]
  · rw [if_neg h1, if_neg h1]
    simp

theorem logFrom_get (M : Libm) {sr fft : ℕ} {fmin fmax : F32} {smin : ℤ} {n : ℕ} : ∀ (l : List F32) (i : ℕ) (v : List F32),
    v.length = n → (logFrom M sr fft fmin fmax smin n i l v).length = n ∧
      ∀ k < n, (logFrom M sr fft fmin fmax smin n i l v).getD k 0 =
        (logCell M sr fft fmin fmax smin n k i l).foldl (· + ·) (v.getD k 0) := by
  intro l
  induction l with
  | nil => intro i v hv; exact ⟨hv, fun _ _ => rfl⟩
  | cons m l ih =>
    intro i v hv
    have skip : (¬ (¬ m ≤ 0 ∧ LogBand sr fft fmin fmax i)) → ∀ k, logCell M sr fft fmin fmax smin n k i (m :: l) =
        logCell M sr fft fmin fmax smin n k (i + 1) l := by
      intro h k
      unfold logCell
      rw [List.zipIdx_cons, List.filter_cons_of_neg]
      simp only [decide_eq_true_eq]
      exact fun hh => h ⟨hh.1, hh.2.1⟩
    unfold logFrom
    by_cases h1 : m ≤ 0
    · rw [if_pos h1]
      obtain ⟨a, b⟩ := ih (i + 1) v hv
      exact ⟨a, fun k hk => by rw [b k hk, skip (fun h => h.1 h1) k]⟩
    rw [if_neg h1]
    by_cases h2 : binFreq sr fft i < fmin ∨ fmax ≤ binFreq sr fft i ∨ F32.ofNat sr / 2 ≤ binFreq sr fft i
    · rw [if_pos h2]
      obtain ⟨a, b⟩ := ih (i + 1) v hv
      exact ⟨a, fun k hk => by rw [b k hk, skip (fun h => h.2 h2) k]⟩
    rw [if_neg h2]
    have epos : semi M (binFreq sr fft i) - F32.ofInt smin = logPos M sr fft smin i := rfl
    rw [epos]
    obtain ⟨a, b⟩ := ih (i + 1) (addLog n (logPos M sr fft smin i) m v) (by rw [length_addLog]; exact hv)
    refine ⟨a, fun k hk => ?_⟩
    rw [b k hk, addLog_get hv hk]
    unfold logCell
    rw [List.zipIdx_cons]
    by_cases h3 : k ∈ logTargets n (logPos M sr fft smin i)
    · rw [if_pos h3, List.filter_cons_of_pos (by simp only [decide_eq_true_eq]; exact ⟨h1, h2, h3⟩)]
      rfl
    · rw [if_neg h3, List.filter_cons_of_neg (by simp only [decide_eq_true_eq]; exact fun h => h3 h.2.2)]

theorem floor_exact {a : ℚ} {ha} (h : |a| ≤ 2 ^ 23) : (F32.floor (fin a ha)).toI32 = ⌊a⌋ ∧ (F32.ceil (fin a ha)).toI32 = ⌈a⌉ := by
  have hb := abs_le.1 h
  have f1 := Int.floor_le a
  have f2 := Int.lt_floor_add_one a
  have c1 := Int.le_ceil a
  have c2 := Int.ceil_lt_add_one a
  have key : ∀ z : ℤ, |z| ≤ 2 ^ 24 → (rnd (z : ℚ)).toI32 = z := by
    intro z hz
    obtain ⟨hg, e⟩ := ofInt_exact hz
    rw [e]
    show Max.max (-2 ^ 31) (Min.min (truncQ (z : ℚ)) (2 ^ 31 - 1)) = z
    have ht : truncQ (z : ℚ) = z := by
      unfold truncQ
      split_ifs
      · exact Int.floor_intCast z
      · exact Int.ceil_intCast z
    rw [ht]
    have := abs_le.1 hz
    omega
  constructor
  · refine key ⌊a⌋ ?_
    have a1 : ((⌊a⌋ : ℤ) : ℚ) ≤ ((2 ^ 24 : ℤ) : ℚ) := by push_cast; linarith
    have a2 : ((-2 ^ 24 : ℤ) : ℚ) ≤ ((⌊a⌋ : ℤ) : ℚ) := by push_cast; linarith
    rw [abs_le]
    exact ⟨by exact_mod_cast a2, by exact_mod_cast a1⟩
  · refine key ⌈a⌉ ?_
    have a1 : ((⌈a⌉ : ℤ) : ℚ) ≤ ((2 ^ 24 : ℤ) : ℚ) := by push_cast; linarith
    have a2 : ((-2 ^ 24 : ℤ) : ℚ) ≤ ((⌈a⌉ : ℤ) : ℚ) := by push_cast; linarith
    rw [abs_le]
    exact ⟨by exact_mod_cast a2, by exact_mod_cast a1⟩

theorem ragged_false {spec : List (List F32)} (h : ∀ a ∈ spec, ∀ b ∈ spec, a.length = b.length) : ragged spec = false := by
  unfold ragged
  cases spec with
  | nil => rfl
  | cons x xs =>
    rw [List.any_eq_false]
    intro f hf
    simp only [List.headD_cons, bne_iff_ne, ne_eq, not_not]
    exact h f hf x (by simp)

/-- **C81, the semitone range.** For frames of one length, a positive sample rate and transform size, and band ends whose
semitone numbers are `a` and `b`: there are `⌈b⌉ - ⌊a⌋ + 1` output bins per frame, one output frame per input frame, when this
number is positive; `InvalidInput` when it is zero; and a panic when it is negative.  Frames of different lengths and zero
rates give `InvalidInput`, an empty spectrogram an empty one. -/
theorem C81_shape (M : Libm) (spec : List (List F32)) (sr fft : ℕ) (fminHz fmaxHz : F32) :
    (spec = [] → toLog M spec sr fft fminHz fmaxHz = .ok []) ∧
    (spec ≠ [] → ((∃ a ∈ spec, ∃ b ∈ spec, a.length ≠ b.length) ∨ sr = 0 ∨ fft = 0) →
      toLog M spec sr fft fminHz fmaxHz = R.err .invalidInput) ∧
    (spec ≠ [] → (∀ a ∈ spec, ∀ b ∈ spec, a.length = b.length) → 0 < sr → 0 < fft →
      ∀ (a b : ℚ) (ha : _) (hb : _), 12 * M.log2 (F32.max fminHz 20 / 440) + 57 = fin a ha →
        12 * M.log2 (F32.min fmaxHz (F32.ofNat sr / 2 - 1) / 440) + 57 = fin b hb → |a| ≤ 4096 → |b| ≤ 4096 →
        (⌊a⌋ ≤ ⌈b⌉ → ∃ out, toLog M spec sr fft fminHz fmaxHz = .ok out ∧ out.length = spec.length ∧
          ∀ fr ∈ out, (fr.length : ℤ) = ⌈b⌉ - ⌊a⌋ + 1) ∧
        (⌈b⌉ + 1 = ⌊a⌋ → toLog M spec sr fft fminHz fmaxHz = R.err .invalidInput) ∧
        (⌈b⌉ + 1 < ⌊a⌋ → toLog M spec sr fft fminHz fmaxHz = R.panic)) := by
  refine ⟨fun h => by unfold toLog; rw [if_pos h], fun hne h => ?_, fun hne h2 hs hf a b ha hb ea eb ba bb => ?_⟩
  · unfold toLog
    rw [if_neg hne]
    by_cases hr : ragged spec = true
    · rw [if_pos hr]
    · rw [if_neg hr]
      rcases h with ⟨x, hx, y, hy, hxy⟩ | h
      · exfalso
        apply hr
        unfold ragged
        rw [List.any_eq_true]
        by_cases hx0 : x.length = (spec.headD []).length
        · exact ⟨y, hy, by simp only [bne_iff_ne, ne_eq]; exact fun hh => hxy (hx0.trans hh.symm)⟩
        · exact ⟨x, hx, by simpa [bne_iff_ne] using hx0⟩
      · rw [if_pos h]
  · have e1 : (F32.floor (semi M (F32.max fminHz 20))).toI32 = ⌊a⌋ := by
      rw [show semi M (F32.max fminHz 20) = fin a ha from ea]
      exact (floor_exact (ba.trans (by norm_num))).1
    have e2 : (F32.ceil (semi M (F32.min fmaxHz (F32.ofNat sr / 2 - 1)))).toI32 = ⌈b⌉ := by
      rw [show semi M (F32.min fmaxHz (F32.ofNat sr / 2 - 1)) = fin b hb from eb]
      exact (floor_exact (bb.trans (by norm_num))).2
    have hfl : |⌊a⌋| ≤ 5000 := by
      have := abs_le.1 ba
      have f1 := Int.floor_le a
      have f2 := Int.lt_floor_add_one a
      have a1 : ((⌊a⌋ : ℤ) : ℚ) ≤ ((5000 : ℤ) : ℚ) := by push_cast; linarith
      have a2 : ((-5000 : ℤ) : ℚ) ≤ ((⌊a⌋ : ℤ) : ℚ) := by push_cast; linarith
      rw [abs_le]
      exact ⟨by exact_mod_cast a2, by exact_mod_cast a1⟩
    have hce : |⌈b⌉| ≤ 5000 := by
      have := abs_le.1 bb
      have c1 := Int.le_ceil b
      have c2 := Int.ceil_lt_add_one b
      have a1 : ((⌈b⌉ : ℤ) : ℚ) ≤ ((5000 : ℤ) : ℚ) := by push_cast; linarith
      have a2 : ((-5000 : ℤ) : ℚ) ≤ ((⌈b⌉ : ℤ) : ℚ) := by push_cast; linarith
      rw [abs_le]
      exact ⟨by exact_mod_cast a2, by exact_mod_cast a1⟩
    generalize ⌊a⌋ = p at *
    generalize ⌈b⌉ = q at *
    have q1 := abs_le.1 hfl
    have q2 := abs_le.1 hce
    have hn : semiBins p q = if q - p + 1 < 0 then R.panic else if q - p + 1 = 0 then R.err .invalidInput
        else .ok (q - p + 1).toNat := by
      unfold semiBins i32
      rw [if_pos (by omega), R.ok_bind, if_pos (by omega), R.ok_bind]
      rfl
    have ht : toLog M spec sr fft fminHz fmaxHz = (semiBins p q >>= fun n => pure (spec.map (fun fr =>
        logFrom M sr fft (F32.max fminHz 20) (F32.min fmaxHz (F32.ofNat sr / 2 - 1)) p n 0 fr (List.replicate n 0)))) := by
      unfold toLog
      rw [if_neg hne, if_neg (by rw [ragged_false h2]; simp), if_neg (by omega)]
      dsimp only
      rw [e1, e2]
    rw [ht, hn]
    refine ⟨fun h => ?_, fun h => ?_, fun h => ?_⟩
    · rw [if_neg (by omega), if_neg (by omega), R.ok_bind]
      refine ⟨_, rfl, by rw [List.length_map], ?_⟩
      intro fr hfr
      obtain ⟨x, _, rfl⟩ := List.mem_map.1 hfr
      rw [(logFrom_get M x 0 _ (List.length_replicate ..)).1]
      omega
    · rw [if_neg (by omega), if_pos (by omega)]; rfl
    · rw [if_pos (by omega)]; rfl

theorem toLog_ok {M : Libm} {spec : List (List F32)} {sr fft : ℕ} {fminHz fmaxHz : F32} {out : List (List F32)}
    (h : toLog M spec sr fft fminHz fmaxHz = .ok out) (hne : spec ≠ []) : ∃ smin n, smin = (F32.floor (semi M (F32.max fminHz 20))).toI32 ∧
      out = spec.map (fun fr => logFrom M sr fft (F32.max fminHz 20) (F32.min fmaxHz (F32.ofNat sr / 2 - 1)) smin n 0 fr
        (List.replicate n 0)) := by
  unfold toLog at h
  rw [if_neg hne] at h
  split_ifs at h
  dsimp only at h
  obtain ⟨n, _, h⟩ := R.bind_eq_ok.1 h
  injection h with h
  exact ⟨_, n, rfl, h.symm⟩

/-- **C81, composition.** When the conversion succeeds there are a first semitone and a number `n` of bins such that entry `k`
of an output frame is the sum, over the in-band bins with a magnitude that is not `≤ 0`, of the shares of those whose
position is in the cell below or above `k`: `m (1 - x + ⌊x⌋)` for the lower and `m (x - ⌊x⌋)` for the upper one. -/
theorem C81_composition (M : Libm) (spec : List (List F32)) (hne : spec ≠ []) (sr fft : ℕ) (fminHz fmaxHz : F32)
    (out : List (List F32)) (h : toLog M spec sr fft fminHz fmaxHz = .ok out) :
    ∃ (smin : ℤ) (n : ℕ), smin = (F32.floor (12 * M.log2 (F32.max fminHz 20 / 440) + 57)).toI32 ∧
      out = spec.map (fun fr => (List.range n).map (fun k =>
        F32.sum (logCell M sr fft (F32.max fminHz 20) (F32.min fmaxHz (F32.ofNat sr / 2 - 1)) smin n k 0 fr))) := by
  obtain ⟨smin, n, hs, he⟩ := toLog_ok h hne
  refine ⟨smin, n, hs, ?_⟩
  rw [he]
  apply List.map_congr_left
  intro fr _
  obtain ⟨l, v⟩ := logFrom_get M (sr := sr) (fft := fft) (fmin := F32.max fminHz 20) (fmax := F32.min fmaxHz (F32.ofNat sr / 2 - 1))
    (smin := smin) fr 0 (List.replicate n 0) List.length_replicate
  refine List.ext_getElem (by rw [l]; simp) (fun k h1 h2 => ?_)
  have hk : k < n := by omega
  have := v k hk
  have hz : (List.replicate n (0 : F32)).getD k 0 = 0 := by
    rw [List.getD_eq_getElem?_getD, List.getElem?_replicate, if_pos hk]; rfl
  rw [hz, List.getD_eq_getElem?_getD, List.getElem?_eq_getElem h1, Option.getD_some] at this
  rw [this]
  simp only [List.getElem_map, List.getElem_range]
  rfl

theorem zipIdx_cell_congr {M : Libm} {sr fft : ℕ} {fmin fmax : F32} {smin : ℤ} {n k : ℕ} : ∀ {a b : List F32} {i : ℕ},
    a.length = b.length → (∀ j (h : j < a.length) (h' : j < b.length), LogBand sr fft fmin fmax (i + j) →
      k ∈ logTargets n (logPos M sr fft smin (i + j)) → a[j] = b[j]) →
    logCell M sr fft fmin fmax smin n k i a = logCell M sr fft fmin fmax smin n k i b := by
  intro a
  induction a with
  | nil => intro b i h _; cases b with
    | nil => rfl
    | cons => simp at h
  | cons x a ih =>
    intro b i h hx
    cases b with
    | nil => simp at h
    | cons y b =>
      have hrec := ih (b := b) (i := i + 1) (by simpa using h) (fun j h1 h2 h3 h4 => by
        have := hx (j + 1) (by simp; omega) (by simp; omega)
        rw [show i + (j + 1) = i + 1 + j by omega] at this
        simpa using this h3 h4)
      unfold logCell at hrec ⊢
      rw [List.zipIdx_cons, List.zipIdx_cons]
      by_cases hn : LogBand sr fft fmin fmax i ∧ k ∈ logTargets n (logPos M sr fft smin i)
      · have hxy : x = y := by
          have := hx 0 (by simp) (by simp) (by simpa using hn.1) (by simpa using hn.2)
          simpa using this
        subst hxy
        by_cases h0 : x ≤ 0
        · rw [List.filter_cons_of_neg (by simp [h0]), List.filter_cons_of_neg (by simp [h0]), hrec]
        · rw [List.filter_cons_of_pos (by simp [h0, hn]), List.filter_cons_of_pos (by simp [h0, hn]), List.map_cons, List.map_cons, hrec]
      · rw [List.filter_cons_of_neg, List.filter_cons_of_neg, hrec]
        · simp only [decide_eq_true_eq]; exact fun hh => hn hh.2
        · simp only [decide_eq_true_eq]; exact fun hh => hn hh.2

/-- **C81, locality.** Entry `k` of an output frame depends only on the in-band bins whose position is less than one semitone
from it: two spectrograms of the same shape that agree on these bins give the same entry. -/
theorem C81_local (M : Libm) (a b : List F32) (hl : a.length = b.length) (sr fft : ℕ) (fminHz fmaxHz : F32)
    (outA outB : List F32) (ha : toLog M [a] sr fft fminHz fmaxHz = .ok [outA]) (hb : toLog M [b] sr fft fminHz fmaxHz = .ok [outB])
    (smin : ℤ) (hsm : smin = (F32.floor (12 * M.log2 (F32.max fminHz 20 / 440) + 57)).toI32) (k : ℕ)
    (h : ∀ j (h : j < a.length) (h' : j < b.length),
      ¬ F32.ofNat j * (F32.ofNat sr / F32.ofNat fft) < F32.max fminHz 20 →
      (k = (F32.floor (12 * M.log2 (F32.ofNat j * (F32.ofNat sr / F32.ofNat fft) / 440) + 57 - F32.ofInt smin)).toUsize ∨
        k = Nat.min (F32.ceil (12 * M.log2 (F32.ofNat j * (F32.ofNat sr / F32.ofNat fft) / 440) + 57 - F32.ofInt smin)).toUsize
          (outA.length - 1)) → a[j] = b[j]) :
    outA.getD k 0 = outB.getD k 0 := by
  unfold toLog at ha hb
  rw [if_neg (by simp)] at ha hb
  split_ifs at ha
  split_ifs at hb
  dsimp only at ha hb
  obtain ⟨n, hn, ha⟩ := R.bind_eq_ok.1 ha
  obtain ⟨n', hn', hb⟩ := R.bind_eq_ok.1 hb
  rw [hn] at hn'
  injection hn' with hn'
  subst hn'
  injection ha with ha
  injection hb with hb
  rw [List.map_cons, List.map_nil] at ha hb
  have ha := (List.cons.inj ha).1
  have hb := (List.cons.inj hb).1
  have hsm' : smin = (F32.floor (semi M (F32.max fminHz 20))).toI32 := hsm
  rw [← hsm'] at ha hb
  obtain ⟨la, va⟩ := logFrom_get M (sr := sr) (fft := fft) (fmin := F32.max fminHz 20) (fmax := F32.min fmaxHz (F32.ofNat sr / 2 - 1))
    (smin := smin) a 0 (List.replicate n 0) List.length_replicate
  obtain ⟨lb, vb⟩ := logFrom_get M (sr := sr) (fft := fft) (fmin := F32.max fminHz 20) (fmax := F32.min fmaxHz (F32.ofNat sr / 2 - 1))
    (smin := smin) b 0 (List.replicate n 0) List.length_replicate
  rw [ha] at la va
  rw [hb] at lb vb
  by_cases hk : k < n
  swap
  · rw [List.getD_eq_getElem?_getD, List.getD_eq_getElem?_getD, List.getElem?_eq_none (by omega), List.getElem?_eq_none (by omega)]
  rw [va k hk, vb k hk, zipIdx_cell_congr hl]
  intro j h1 h2 h3 h4
  rw [Nat.zero_add] at h3 h4
  refine h j h1 h2 (fun hh => h3 (Or.inl hh)) ?_
  unfold logTargets at h4
  dsimp only at h4
  rw [la]
  split_ifs at h4
  · simp only [List.mem_cons, List.not_mem_nil, or_false] at h4
    exact h4
  · simp only [List.mem_cons, List.not_mem_nil, or_false] at h4
    exact Or.inl h4
  · simp at h4

/-! ### Values -/

/-- the logarithm does not decrease -/
def LogMono (M : Libm) : Prop := ∀ x y : F32, 0 < x → x ≤ y → y.isFinite = true → M.log2 x ≤ M.log2 y

theorem semi_mono {M : Libm} (hM : Sane M) (hL : LogMono M) {f g : F32} (hf : 20 ≤ f) (hfg : f ≤ g) (hg : g ≤ rnd (pow2 63))
    {a b : ℚ} {ha hb} (ea : 12 * M.log2 (f / A4) + SEMI = fin a ha) (eb : 12 * M.log2 (g / A4) + SEMI = fin b hb) : a ≤ b := by
  obtain ⟨h1, e1⟩ : ∃ h, (20 : F32) = fin 20 h := ⟨by decide +kernel, by decide +kernel⟩
  obtain ⟨h2, e2⟩ : ∃ h, rnd (pow2 63) = fin (pow2 63) h := ⟨by decide +kernel, by decide +kernel⟩
  obtain ⟨h3, e3⟩ : ∃ h, A4 = fin 440 h := ⟨by decide +kernel, by decide +kernel⟩
  obtain ⟨h5, e5⟩ : ∃ h, SEMI = fin 57 h := ⟨by decide +kernel, by decide +kernel⟩
  obtain ⟨h12, e12⟩ := twelve
  have hfp : f ≤ rnd (pow2 63) := F32.le_trans hfg hg
  have hgp : 20 ≤ g := F32.le_trans hf hfg
  rw [e1] at hf hgp; rw [e2] at hfp hg
  obtain ⟨v, hv, rfl, hv0, hv1⟩ := between_cases hf hfp
  obtain ⟨w, hw, rfl, hw0, hw1⟩ := between_cases hgp hg
  rw [fin_le_fin] at hfg
  have g8 : OnGrid (1 / 32 : ℚ) ∧ |(1 / 32 : ℚ)| < pow2 128 := by decide +kernel
  obtain ⟨hq, e4, l, u⟩ := rnd_between (x := v / 440) g8 h2 (by rw [le_div_iff₀ (by norm_num)]; linarith)
    (by rw [div_le_iff₀ (by norm_num)]; have := pow2_pos 63; nlinarith)
  obtain ⟨hq', e4', l', u'⟩ := rnd_between (x := w / 440) g8 h2 (by rw [le_div_iff₀ (by norm_num)]; linarith)
    (by rw [div_le_iff₀ (by norm_num)]; have := pow2_pos 63; nlinarith)
  have hle : rndQ (v / 440) ≤ rndQ (w / 440) := rndQ_mono (by rw [div_le_div_iff_of_pos_right (by norm_num)]; exact hfg)
  rw [e3, div_fin (by norm_num), e4] at ea
  rw [e3, div_fin (by norm_num), e4'] at eb
  have hlog := hL _ (fin (rndQ (w / 440)) hq') (show 0 < fin (rndQ (v / 440)) hq by rw [zero_def, fin_lt_fin]; linarith) (fin_le_fin.2 hle) rfl
  obtain ⟨y, hy, ey, hyb⟩ := hM.log2_range (fin (rndQ (v / 440)) hq) (by rw [zero_def, fin_lt_fin]; linarith) rfl
  obtain ⟨z, hz, ez, hzb⟩ := hM.log2_range (fin (rndQ (w / 440)) hq') (by rw [zero_def, fin_lt_fin]; linarith) rfl
  rw [ey, ez, fin_le_fin] at hlog
  have g12 : OnGrid (2400 : ℚ) ∧ |(2400 : ℚ)| < pow2 128 := by decide +kernel
  have g13 : OnGrid (4096 : ℚ) ∧ |(4096 : ℚ)| < pow2 128 := by decide +kernel
  have hyb' := abs_le.1 hyb
  have hzb' := abs_le.1 hzb
  obtain ⟨k1, f1, b1⟩ := rnd_finite_of_abs_le (q := 12 * y) g12 (by rw [abs_le]; constructor <;> linarith)
  obtain ⟨k2, f2, b2⟩ := rnd_finite_of_abs_le (q := 12 * z) g12 (by rw [abs_le]; constructor <;> linarith)
  have hm : rndQ (12 * y) ≤ rndQ (12 * z) := rndQ_mono (by linarith)
  rw [ey, e12, mul_fin, f1, e5, add_fin] at ea
  rw [ez, e12, mul_fin, f2, e5, add_fin] at eb
  have b1' := abs_le.1 b1
  have b2' := abs_le.1 b2
  obtain ⟨k3, f3, _⟩ := rnd_finite_of_abs_le (q := rndQ (12 * y) + 57) g13 (by rw [abs_le]; constructor <;> linarith)
  obtain ⟨k4, f4, _⟩ := rnd_finite_of_abs_le (q := rndQ (12 * z) + 57) g13 (by rw [abs_le]; constructor <;> linarith)
  rw [f3] at ea
  rw [f4] at eb
  injection ea with ea
  injection eb with eb
  rw [← ea, ← eb]
  exact rndQ_mono (by linarith)

/-- positions: not negative, and their cell and the rest are exact enough -/
theorem pos_parts {ξ : ℚ} {hξ} (h0 : 0 ≤ ξ) (h1 : ξ ≤ 2 ^ 20) :
    (F32.floor (fin ξ hξ)).toUsize = ⌊ξ⌋.toNat ∧ (F32.ceil (fin ξ hξ)).toUsize = ⌈ξ⌉.toNat ∧
      ∃ r hr, fin ξ hξ - F32.ofNat ⌊ξ⌋.toNat = fin r hr ∧ 0 ≤ r ∧ r ≤ 1 ∧ r = rndQ (ξ - ⌊ξ⌋) := by
  have f0 : 0 ≤ ⌊ξ⌋ := Int.floor_nonneg.2 h0
  have f1 := Int.floor_le ξ
  have f2 := Int.lt_floor_add_one ξ
  have c2 := Int.ceil_lt_add_one ξ
  have c1 := Int.le_ceil ξ
  have hfl : ⌊ξ⌋ ≤ 2 ^ 20 := by
    have : ((⌊ξ⌋ : ℤ) : ℚ) ≤ ((2 ^ 20 : ℤ) : ℚ) := by push_cast; linarith
    exact_mod_cast this
  have hc0 : 0 ≤ ⌈ξ⌉ := Int.ceil_nonneg h0
  have hce : ⌈ξ⌉ ≤ 2 ^ 20 + 1 := by
    have : ((⌈ξ⌉ : ℤ) : ℚ) ≤ ((2 ^ 20 + 1 : ℤ) : ℚ) := by push_cast; linarith
    exact_mod_cast this
  have key : ∀ z : ℤ, 0 ≤ z → z ≤ 2 ^ 24 → (rnd (z : ℚ)).toUsize = z.toNat := by
    intro z hz hz'
    obtain ⟨hg, e⟩ := ofInt_exact (n := z) (by rw [_root_.abs_le]; constructor <;> omega)
    rw [e]
    show Nat.min ⌊(z : ℚ)⌋.toNat usizeMax = z.toNat
    rw [Int.floor_intCast]
    apply Nat.min_eq_left
    unfold usizeMax
    omega
  refine ⟨key _ f0 (by omega), key _ hc0 (by omega), ?_⟩
  have ecast : ((⌊ξ⌋.toNat : ℕ) : ℚ) = (⌊ξ⌋ : ℚ) := by
    have : ((⌊ξ⌋.toNat : ℕ) : ℤ) = ⌊ξ⌋ := Int.toNat_of_nonneg f0
    exact_mod_cast this
  rw [ofNat_exact (by omega : ⌊ξ⌋.toNat ≤ 2 ^ 24), sub_fin, ecast]
  obtain ⟨hq, eq, l, u⟩ := rnd_between (x := ξ - ⌊ξ⌋) grid_zero grid_one (by linarith) (by linarith)
  exact ⟨_, hq, eq, l, u, rfl⟩

/-- the position of an in-band bin -/
theorem logPos_val {M : Libm} (hM : Sane M) (hL : LogMono M) {sr fft i : ℕ} (hs : sr ≤ 2 ^ 64) (hf : 0 < fft) (hf' : fft ≤ 2 ^ 64)
    (hi : i ≤ 2 ^ 64) {fmin fmax : F32} (h20 : 20 ≤ fmin) {a : ℚ} {ha} (ea : 12 * M.log2 (fmin / 440) + 57 = fin a ha)
    (hb : LogBand sr fft fmin fmax i) :
    ∃ ξ hξ, logPos M sr fft ⌊a⌋ i = fin ξ hξ ∧ 0 ≤ ξ ∧ ξ ≤ 2 ^ 20 := by
  have hn : binFreq sr fft i ≠ nan := freq_ne_nan hs hf hf' hi
  unfold LogBand at hb
  simp only [not_or] at hb
  have h1 : fmin ≤ binFreq sr fft i := F32.le_of_not_lt (ne_nan_right h20) hn hb.1
  have hny := nyq_le hs
  have h2 : binFreq sr fft i ≤ rnd (pow2 63) :=
    F32.le_trans (F32.le_of_lt (F32.lt_of_not_le hn (ne_nan_left hny) hb.2.2)) hny
  obtain ⟨v, hv, ev, hvb⟩ := semi_small hM (F32.le_trans h20 h1) h2
  obtain ⟨a', ha', ea', hab⟩ := semi_small hM h20 (F32.le_trans h1 h2)
  have haa : a' = a := by
    have : fin a' ha' = fin a ha := by rw [← ea', ← ea]; rfl
    injection this
  subst haa
  have hle : a' ≤ v := semi_mono hM hL h20 h1 h2 ea' ev
  have f1 := Int.floor_le a'
  have f2 := Int.lt_floor_add_one a'
  have q1 := abs_le.1 hab
  have q2 := abs_le.1 hvb
  obtain ⟨hg, eg⟩ := ofInt_exact (n := ⌊a'⌋) (by
    have a1 : ((⌊a'⌋ : ℤ) : ℚ) ≤ ((2 ^ 24 : ℤ) : ℚ) := by push_cast; linarith
    have a2 : ((-2 ^ 24 : ℤ) : ℚ) ≤ ((⌊a'⌋ : ℤ) : ℚ) := by push_cast; linarith
    rw [_root_.abs_le]
    exact ⟨by exact_mod_cast a2, by exact_mod_cast a1⟩)
  have e : logPos M sr fft ⌊a'⌋ i = fin v hv - fin (⌊a'⌋ : ℚ) hg := by
    unfold logPos F32.ofInt
    rw [eg]
    have : 12 * M.log2 (F32.ofNat i * (F32.ofNat sr / F32.ofNat fft) / 440) + 57 = fin v hv := ev
    rw [this]
  rw [e, sub_fin]
  have g20 : OnGrid (2 ^ 20 : ℚ) ∧ |(2 ^ 20 : ℚ)| < pow2 128 := by decide +kernel
  obtain ⟨hq, eq, l, u⟩ := rnd_between (x := v - ⌊a'⌋) grid_zero g20 (by linarith) (by norm_num; linarith)
  exact ⟨_, hq, eq, l, u⟩

theorem logShare_range {ξ : ℚ} {hξ} (h0 : 0 ≤ ξ) (h1 : ξ ≤ 2 ^ 20) {m : F32} (hm : 0 ≤ m) (hm' : m ≤ rnd (pow2 77)) (k : ℕ) :
    0 ≤ logShare (fin ξ hξ) m k ∧ logShare (fin ξ hξ) m k ≤ rnd (pow2 77) := by
  obtain ⟨p1, _, r, hr, er, r0, r1, _⟩ := pos_parts (hξ := hξ) h0 h1
  unfold logShare
  rw [p1, er]
  have u1 : (0 : F32) ≤ fin r hr ∧ fin r hr ≤ 1 := by
    rw [zero_def, one_def, fin_le_fin, fin_le_fin]; exact ⟨r0, r1⟩
  have u2 : (0 : F32) ≤ 1 - fin r hr ∧ 1 - fin r hr ≤ 1 := by
    rw [one_def, sub_fin]
    obtain ⟨hq, eq, l, u⟩ := rnd_between (x := 1 - r) grid_zero grid_one (by linarith) (by linarith)
    rw [eq, zero_def, fin_le_fin, fin_le_fin]; exact ⟨l, u⟩
  split_ifs
  · exact weighted hm hm' u2.1 u2.2
  · exact weighted hm hm' u1.1 u1.2

/-- **C81, values (partial).** For magnitudes that are numbers up to `2^77` (negative ones count as silence) every entry of the
log-frequency spectrogram is a finite number, at least 0.  Missing: NaN magnitudes, which are not skipped
(`C81_violated_nan`), and louder ones. -/
theorem C81_range_partial (M : Libm) (hM : Sane M) (hL : LogMono M) (spec : List (List F32)) (hne : spec ≠ [])
    (hlen : ∀ fr ∈ spec, fr.length ≤ 2 ^ 64) (hm : ∀ fr ∈ spec, ∀ m ∈ fr, m ≤ rnd (pow2 77)) (sr fft : ℕ) (hs : sr ≤ 2 ^ 64)
    (hf : 0 < fft) (hf' : fft ≤ 2 ^ 64) (fminHz fmaxHz : F32) (hfm : fminHz ≤ rnd (pow2 63)) (out : List (List F32))
    (h : toLog M spec sr fft fminHz fmaxHz = .ok out) : ∀ fr ∈ out, ∀ y ∈ fr, 0 ≤ y ∧ y.isFinite = true := by
  obtain ⟨smin, n, es, eo⟩ := C81_composition M spec hne sr fft fminHz fmaxHz out h
  have h20 : (20 : F32) ≤ F32.max fminHz 20 := le_max_right (by decide +kernel)
  have hmx : F32.max fminHz 20 ≤ rnd (pow2 63) := by
    rcases max_eq_left_or_right fminHz 20 with e | e <;> rw [e]
    · exact hfm
    · decide +kernel
  obtain ⟨a, ha, ea, hab⟩ := semi_small hM h20 hmx
  have ea' : 12 * M.log2 (F32.max fminHz 20 / 440) + 57 = fin a ha := ea
  rw [ea', (floor_exact (hab.trans (by norm_num))).1] at es
  rw [es] at eo
  intro fr hfr y hy
  rw [eo] at hfr
  obtain ⟨x, hx, rfl⟩ := List.mem_map.1 hfr
  obtain ⟨k, _, rfl⟩ := List.mem_map.1 hy
  have hb := sum_sat77 (l := logCell M sr fft (F32.max fminHz 20) (F32.min fmaxHz (F32.ofNat sr / 2 - 1)) ⌊a⌋ n k 0 x) (by
    intro y hy
    unfold logCell at hy
    obtain ⟨p, hp, rfl⟩ := List.mem_map.1 hy
    obtain ⟨hp1, hp2⟩ := List.mem_filter.1 hp
    simp only [decide_eq_true_eq] at hp2
    obtain ⟨k1, k2⟩ := List.mem_zipIdx' hp1
    have hpx : p.1 ∈ x := k2 ▸ List.getElem_mem k1
    obtain ⟨ξ, hξ, e, x0, x1⟩ := logPos_val hM hL hs hf hf' (i := p.2) (by have := hlen x hx; omega) h20 ea' hp2.2.1
    rw [e]
    have hle := hm x hx p.1 hpx
    exact logShare_range x0 x1 (F32.le_of_lt (F32.lt_of_not_le (by decide +kernel) (ne_nan_left hle) hp2.1)) hle k)
  exact ⟨hb.1, isFinite_of_between (by decide +kernel) (by decide +kernel) hb.1 hb.2⟩

/-- **C81, a single tone.** A frame whose only positive in-band magnitude is `m` at position `ξ` (in semitones from the first
output bin): the bins below and above `ξ` share `m` in proportion to their distance, every other entry is 0, and nothing is
lost (all up to a relative error of `2^-22`). -/
theorem C81_tone (M : Libm) (hM : Sane M) (hL : LogMono M) (frame : List F32) (hlen : frame.length ≤ 2 ^ 64)
    (sr fft : ℕ) (hs0 : 0 < sr) (hs : sr ≤ 2 ^ 64) (hf : 0 < fft) (fminHz fmaxHz : F32)
    (b : ℕ) (m : ℚ) (hmg : _) (hm : frame[b]? = some (fin m hmg)) (hm0 : 1 / 2 ^ 60 ≤ m)
    (h1 : F32.max fminHz 20 ≤ F32.ofNat b * (F32.ofNat sr / F32.ofNat fft))
    (h2 : F32.ofNat b * (F32.ofNat sr / F32.ofNat fft) < F32.min fmaxHz (F32.ofNat sr / 2 - 1))
    (hsil : ∀ j x, frame[j]? = some x → j ≠ b → x ≤ 0) :
    ∃ out ξ hξ smin, toLog M [frame] sr fft fminHz fmaxHz = .ok [out] ∧
      smin = (F32.floor (12 * M.log2 (F32.max fminHz 20 / 440) + 57)).toI32 ∧
      12 * M.log2 (F32.ofNat b * (F32.ofNat sr / F32.ofNat fft) / 440) + 57 - F32.ofInt smin = fin ξ hξ ∧ 0 ≤ ξ ∧ ⌈ξ⌉ < out.length ∧
      (∀ k : ℕ, ((k : ℤ) < ⌊ξ⌋ ∨ ⌈ξ⌉ < k) → out.getD k 0 = 0) ∧
      |(out.getD ⌊ξ⌋.toNat 0).val - m * (1 - (ξ - ⌊ξ⌋))| ≤ m / 2 ^ 22 ∧
      (⌈ξ⌉ ≠ ⌊ξ⌋ → |(out.getD ⌈ξ⌉.toNat 0).val - m * (ξ - ⌊ξ⌋)| ≤ m / 2 ^ 22) := by
  have h20 : (20 : F32) ≤ F32.max fminHz 20 := le_max_right (by decide +kernel)
  have hny := nyq_le hs
  have hnf : F32.ofNat sr / 2 ≠ nan := ne_nan_left hny
  have hm1le : F32.ofNat sr / 2 - 1 ≤ F32.ofNat sr / 2 ∧ F32.ofNat sr / 2 - 1 ≠ nan := by
    have hh0 : 0 ≤ F32.ofNat sr / 2 := F32.div_nonneg (ofNat_nonneg _) (by decide +kernel) hnf
    obtain ⟨g, e⟩ : ∃ h, rnd (pow2 63) = fin (pow2 63) h := ⟨by decide +kernel, by decide +kernel⟩
    rw [e] at hny
    generalize F32.ofNat sr / 2 = q at *
    have hh0' := hh0
    rw [zero_def] at hh0'
    obtain ⟨v, hv, rfl, v0, v1⟩ := between_cases hh0' hny
    rw [one_def, sub_fin]
    refine ⟨rnd_le_fin (by linarith), rnd_ne_nan _⟩
  have hmin_le : F32.min fmaxHz (F32.ofNat sr / 2 - 1) ≤ F32.ofNat sr / 2 := F32.le_trans (F32.min_le_right hm1le.2) hm1le.1
  have hband : LogBand sr fft (F32.max fminHz 20) (F32.min fmaxHz (F32.ofNat sr / 2 - 1)) b := by
    unfold LogBand
    simp only [not_or]
    refine ⟨F32.not_lt_of_le h1, fun h => F32.lt_irrefl _ (F32.lt_of_lt_of_le h2 h), fun h => ?_⟩
    exact F32.lt_irrefl _ (F32.lt_of_lt_of_le h2 (F32.le_trans hmin_le h))
  have hfmaxle : F32.min fmaxHz (F32.ofNat sr / 2 - 1) ≤ rnd (pow2 63) := F32.le_trans hmin_le hny
  have hb64 : b ≤ 2 ^ 64 := by have := (List.getElem?_eq_some_iff.1 hm).1; omega
  have hffmax : binFreq sr fft b ≤ F32.min fmaxHz (F32.ofNat sr / 2 - 1) := F32.le_of_lt h2
  obtain ⟨a, ha, ea, hab⟩ := semi_small hM h20 (F32.le_trans h1 (F32.le_trans hffmax hfmaxle))
  obtain ⟨c, hc, ec, hcb⟩ := semi_small hM (F32.le_trans h20 (F32.le_trans h1 hffmax)) hfmaxle
  obtain ⟨v, hv, ev, hvb⟩ := semi_small hM (F32.le_trans h20 h1) (F32.le_trans hffmax hfmaxle)
  have hac : a ≤ v := semi_mono hM hL h20 h1 (F32.le_trans hffmax hfmaxle) ea ev
  have hvc : v ≤ c := semi_mono hM hL (F32.le_trans h20 h1) hffmax hfmaxle ev ec
  have hfc : ⌊a⌋ ≤ ⌈c⌉ := by
    have f1 := Int.floor_le a
    have c1 := Int.le_ceil c
    have : ((⌊a⌋ : ℤ) : ℚ) ≤ ((⌈c⌉ : ℤ) : ℚ) := by linarith
    exact_mod_cast this
  obtain ⟨outs, eo, lo, hl⟩ := ((C81_shape M [frame] sr fft fminHz fmaxHz).2.2 (by simp) (by simp) hs0 hf a c ha hc ea ec hab hcb).1 hfc
  obtain ⟨smin, n, es, eo'⟩ := C81_composition M [frame] (by simp) sr fft fminHz fmaxHz outs eo
  rw [show 12 * M.log2 (F32.max fminHz 20 / 440) + 57 = fin a ha from ea] at es
  have es' := es
  rw [(floor_exact (hab.trans (by norm_num))).1] at es
  rw [es, List.map_cons, List.map_nil] at eo'
  have hlen' := hl _ (by rw [eo']; exact List.mem_singleton_self _)
  rw [List.length_map, List.length_range] at hlen'
  have ea' : 12 * M.log2 (F32.max fminHz 20 / 440) + 57 = fin a ha := ea
  -- the position
  have f1 := Int.floor_le a
  have f2 := Int.lt_floor_add_one a
  have c1 := Int.le_ceil c
  have c2 := Int.ceil_lt_add_one c
  have q1 := abs_le.1 hab
  have q2 := abs_le.1 hcb
  have flb : |⌊a⌋| ≤ 2 ^ 24 := by
    have a1 : ((⌊a⌋ : ℤ) : ℚ) ≤ ((2 ^ 24 : ℤ) : ℚ) := by push_cast; linarith
    have a2 : ((-2 ^ 24 : ℤ) : ℚ) ≤ ((⌊a⌋ : ℤ) : ℚ) := by push_cast; linarith
    rw [_root_.abs_le]
    exact ⟨by exact_mod_cast a2, by exact_mod_cast a1⟩
  obtain ⟨hg, eg⟩ := ofInt_exact flb
  have hn24 : n ≤ 2 ^ 24 := by
    have a1 : ((⌈c⌉ : ℤ) : ℚ) ≤ ((5000 : ℤ) : ℚ) := by push_cast; linarith
    have a2 : ((-5000 : ℤ) : ℚ) ≤ ((⌊a⌋ : ℤ) : ℚ) := by push_cast; linarith
    have a1' : ⌈c⌉ ≤ 5000 := by exact_mod_cast a1
    have a2' : -5000 ≤ ⌊a⌋ := by exact_mod_cast a2
    omega
  have hnn : ((n : ℤ) : ℚ) = (⌈c⌉ : ℚ) - ⌊a⌋ + 1 := by rw [hlen']; push_cast; ring
  have hn1 : 1 ≤ n := by omega
  have hcast : (((n - 1 : ℕ)) : ℚ) = (⌈c⌉ : ℚ) - ⌊a⌋ := by
    rw [Nat.cast_sub hn1]
    push_cast at hnn ⊢
    linarith
  obtain ⟨hq, eq, l, u⟩ := rnd_between (x := v - ⌊a⌋) grid_zero (grid_nat (show n - 1 ≤ 2 ^ 24 by omega)) (by linarith)
    (by rw [hcast]; linarith)
  have epos : logPos M sr fft ⌊a⌋ b = fin (rndQ (v - ⌊a⌋)) hq := by
    unfold logPos F32.ofInt
    rw [eg]
    have : 12 * M.log2 (F32.ofNat b * (F32.ofNat sr / F32.ofNat fft) / 440) + 57 = fin v hv := ev
    rw [this, sub_fin, eq]
  generalize rndQ (v - ⌊a⌋) = ξ at *
  have hξn : ⌈ξ⌉ ≤ ((n - 1 : ℕ) : ℤ) := Int.ceil_le.2 (by exact_mod_cast u)
  have hξ20 : ξ ≤ 2 ^ 20 := by
    have : (((n - 1 : ℕ)) : ℚ) ≤ 2 ^ 20 := by rw [hcast]; norm_num; linarith
    linarith
  have fξ0 : 0 ≤ ⌊ξ⌋ := Int.floor_nonneg.2 l
  have hfc' : ⌊ξ⌋ ≤ ⌈ξ⌉ := Int.floor_le_ceil ξ
  obtain ⟨p1, p2, r, hr, er, r0, r1, rr⟩ := pos_parts (hξ := hq) l hξ20
  -- the cell
  have hcell : ∀ k, logCell M sr fft (F32.max fminHz 20) (F32.min fmaxHz (F32.ofNat sr / 2 - 1)) ⌊a⌋ n k 0 frame =
      if k ∈ logTargets n (fin ξ hq) then [logShare (fin ξ hq) (fin m hmg) k] else [] := by
    intro k
    have gen : ∀ (l : List F32) (i : ℕ), (∀ j x, l[j]? = some x → i + j ≠ b → x ≤ 0) →
        (b < i → logCell M sr fft (F32.max fminHz 20) (F32.min fmaxHz (F32.ofNat sr / 2 - 1)) ⌊a⌋ n k i l = []) ∧
        (i ≤ b → l[b - i]? = some (fin m hmg) →
          logCell M sr fft (F32.max fminHz 20) (F32.min fmaxHz (F32.ofNat sr / 2 - 1)) ⌊a⌋ n k i l =
            if k ∈ logTargets n (fin ξ hq) then [logShare (fin ξ hq) (fin m hmg) k] else []) := by
      intro l
      induction l with
      | nil => intro i _; exact ⟨fun _ => rfl, fun _ h => by simp at h⟩
      | cons x l ih =>
        intro i hx
        obtain ⟨i1, i2⟩ := ih (i + 1) (fun j y hy hne => hx (j + 1) y (by simpa using hy) (by omega))
        unfold logCell at i1 i2 ⊢
        constructor
        · intro hbi
          have h0 : x ≤ 0 := hx 0 x (by simp) (by omega)
          rw [List.zipIdx_cons, List.filter_cons_of_neg (by simp [h0])]
          exact i1 (by omega)
        · intro hib hxm
          rw [List.zipIdx_cons]
          by_cases he : i = b
          · subst he
            have hxe : x = fin m hmg := by simpa using hxm
            subst hxe
            have hpos : ¬ fin m hmg ≤ 0 := by
              rw [zero_def, fin_le_fin]
              intro hh
              have : (0 : ℚ) < 1 / 2 ^ 60 := by norm_num
              linarith
            by_cases hk : k ∈ logTargets n (fin ξ hq)
            · rw [if_pos hk, List.filter_cons_of_pos (by
                simp only [decide_eq_true_eq]; exact ⟨hpos, hband, by rw [epos]; exact hk⟩), List.map_cons, i1 (by omega), epos]
            · rw [if_neg hk, List.filter_cons_of_neg (by
                simp only [decide_eq_true_eq]; rw [epos]; exact fun hh => hk hh.2.2), i1 (by omega)]
          · have h0 : x ≤ 0 := hx 0 x (by simp) (by omega)
            rw [List.filter_cons_of_neg (by simp [h0])]
            refine i2 (by omega) ?_
            rw [show b - i = b - (i + 1) + 1 by omega] at hxm
            simpa using hxm
    exact (gen frame 0 (fun j x hj hne => hsil j x hj (by omega))).2 (Nat.zero_le _) (by simpa using hm)
  have htar : ∀ k, k ∈ logTargets n (fin ξ hq) ↔ k = ⌊ξ⌋.toNat ∨ k = ⌈ξ⌉.toNat := by
    intro k
    unfold logTargets
    dsimp only
    rw [p1, p2]
    have hmin : Nat.min ⌈ξ⌉.toNat (n - 1) = ⌈ξ⌉.toNat := Nat.min_eq_left (by omega)
    rw [hmin, if_pos (by omega)]
    by_cases he : ⌈ξ⌉.toNat ≠ ⌊ξ⌋.toNat ∧ ⌈ξ⌉.toNat < n
    · rw [if_pos he]; simp
    · rw [if_neg he]
      have : ⌈ξ⌉.toNat = ⌊ξ⌋.toNat := by
        by_contra hh
        exact he ⟨hh, by omega⟩
      rw [this]; simp
  have hget : ∀ k < n, ((List.range n).map (fun k => F32.sum (logCell M sr fft (F32.max fminHz 20)
      (F32.min fmaxHz (F32.ofNat sr / 2 - 1)) ⌊a⌋ n k 0 frame))).getD k 0 =
      if k = ⌊ξ⌋.toNat ∨ k = ⌈ξ⌉.toNat then 0 + logShare (fin ξ hq) (fin m hmg) k else 0 := by
    intro k hk
    rw [List.getD_eq_getElem?_getD, List.getElem?_map, List.getElem?_range hk]
    show F32.sum _ = _
    rw [hcell k]
    simp only [htar]
    split_ifs <;> rfl
  have hmpos : 0 < m := lt_of_lt_of_le (by norm_num) hm0
  have p24 : pow2 (-24) = 1 / 2 ^ 24 := by decide +kernel
  have p150 : pow2 (-150) ≤ 1 / 2 ^ 60 * (1 / 2 ^ 40) := by decide +kernel
  -- rounding a share
  have share_err : ∀ (t y : ℚ), 0 ≤ t → t ≤ 1 → |t - y| ≤ 1 / 2 ^ 23 + 1 / 2 ^ 59 → |(rnd (m * t)).val - m * y| ≤ m / 2 ^ 22 := by
    intro t y t0 t1 hty
    obtain ⟨hs', es', ls, us⟩ := rnd_between (x := m * t) grid_zero hmg (by positivity) (by nlinarith)
    rw [es']
    show |rndQ (m * t) - m * y| ≤ _
    have e1 := abs_rndQ_sub_le_mix (m * t)
    rw [p24, abs_of_nonneg (show 0 ≤ m * t by positivity)] at e1
    have e2 : |m * t - m * y| ≤ m * (1 / 2 ^ 23 + 1 / 2 ^ 59) := by
      rw [← mul_sub, _root_.abs_mul, abs_of_pos hmpos]
      exact _root_.mul_le_mul_of_nonneg_left hty hmpos.le
    have e3 := abs_add_le (rndQ (m * t) - m * t) (m * t - m * y)
    rw [sub_add_sub_cancel] at e3
    have e4 : m * t * (1 / 2 ^ 24) ≤ m * (1 / 2 ^ 24) := by
      apply _root_.mul_le_mul_of_nonneg_right _ (by norm_num)
      nlinarith
    have e5 : (1 : ℚ) / 2 ^ 60 * (1 / 2 ^ 40) ≤ m * (1 / 2 ^ 40) := _root_.mul_le_mul_of_nonneg_right hm0 (by norm_num)
    have e6 : m * (1 / 2 ^ 24) + m * (1 / 2 ^ 40) + m * (1 / 2 ^ 23 + 1 / 2 ^ 59) ≤ m / 2 ^ 22 := by
      linarith
    linarith
  have hfrac0 : 0 ≤ ξ - ⌊ξ⌋ := by have := Int.floor_le ξ; linarith
  have hfrac1 : ξ - ⌊ξ⌋ < 1 := by have := Int.lt_floor_add_one ξ; linarith
  have hrerr : |r - (ξ - ⌊ξ⌋)| ≤ 1 / 2 ^ 24 + 1 / 2 ^ 60 := by
    rw [rr]
    have e1 := abs_rndQ_sub_le_mix (ξ - ⌊ξ⌋)
    rw [p24, abs_of_nonneg hfrac0] at e1
    have e2 : (ξ - ⌊ξ⌋) * (1 / 2 ^ 24) ≤ 1 * (1 / 2 ^ 24) := _root_.mul_le_mul_of_nonneg_right hfrac1.le (by norm_num)
    have e3 : (1 : ℚ) / 2 ^ 60 * (1 / 2 ^ 40) ≤ 1 / 2 ^ 60 := by norm_num
    linarith
  refine ⟨_, ξ, hq, ⌊a⌋, by rw [eo, eo'], by rw [ea', ← es', es], epos, l, ?_, ?_, ?_, ?_⟩
  · rw [List.length_map, List.length_range]; omega
  · intro k hk
    by_cases hkn : k < n
    · rw [hget k hkn, if_neg (by omega)]
    · rw [List.getD_eq_getElem?_getD, List.getElem?_eq_none (by simpa using hkn)]; rfl
  · rw [hget _ (by omega), if_pos (Or.inl rfl), zero_add_left]
    unfold logShare
    rw [p1, if_pos rfl, er, one_def, sub_fin]
    obtain ⟨ht, et, lt, ut⟩ := rnd_between (x := 1 - r) grid_zero grid_one (by linarith) (by linarith)
    rw [et, mul_fin]
    refine share_err _ _ lt ut ?_
    have e1 := abs_rndQ_sub_le_mix (1 - r)
    rw [p24, abs_of_nonneg (show 0 ≤ 1 - r by linarith)] at e1
    have e2 : (1 - r) * (1 / 2 ^ 24) ≤ 1 * (1 / 2 ^ 24) := mul_le_mul_of_nonneg_right (by linarith) (by norm_num)
    have e3 := abs_le.1 (e1.trans (_root_.add_le_add (e2.trans (le_refl _)) (le_refl _)))
    have e4 := abs_le.1 hrerr
    have e5 : (1 : ℚ) / 2 ^ 60 * (1 / 2 ^ 40) ≤ 1 / 2 ^ 60 := by norm_num
    have e6 : (1 : ℚ) / 2 ^ 24 + 1 / 2 ^ 24 + (1 / 2 ^ 60 + 1 / 2 ^ 60) = 1 / 2 ^ 23 + 1 / 2 ^ 59 := by norm_num
    rw [abs_le]
    constructor <;> linarith
  · intro hne
    rw [hget _ (by omega), if_pos (Or.inr rfl), zero_add_left]
    unfold logShare
    rw [p1, if_neg (by omega), er, mul_fin]
    exact share_err r _ r0 r1 (hrerr.trans (by norm_num))

/-! ### Examples -/

/-- a library whose logarithm takes three values, not whole numbers of semitones -/
def thirdLibm : Libm := { saneLibm with
  log2 := fun x => if x < 1 then -0.28125 else if x ≤ 1 then 0 else 0.21875 }

theorem sane_third : Sane thirdLibm where
  powf_range := sane_demo.powf_range
  powf_zero := sane_demo.powf_zero
  exp_range := sane_demo.exp_range
  log2_range := by
    intro x _ _
    show ∃ v hv, (if x < 1 then -0.28125 else if x ≤ 1 then 0 else 0.21875) = fin v hv ∧ |v| ≤ 200
    split_ifs
    · exact ⟨(-0.28125 : F32).val, by decide +kernel, by decide +kernel, by decide +kernel⟩
    · exact ⟨0, by decide +kernel, by decide +kernel, by norm_num⟩
    · exact ⟨(0.21875 : F32).val, by decide +kernel, by decide +kernel, by decide +kernel⟩

theorem logMono_third : LogMono thirdLibm := by
  intro x y _ hxy _
  show (if x < 1 then (-0.28125 : F32) else if x ≤ 1 then 0 else 0.21875) ≤ if y < 1 then -0.28125 else if y ≤ 1 then 0 else 0.21875
  have k : (-0.28125 : F32) ≤ -0.28125 ∧ (-0.28125 : F32) ≤ 0 ∧ (-0.28125 : F32) ≤ 0.21875 ∧ (0 : F32) ≤ 0 ∧ (0 : F32) ≤ 0.21875 ∧
      (0.21875 : F32) ≤ 0.21875 := by decide +kernel
  obtain ⟨k1, k2, k3, k4, k5, k6⟩ := k
  split_ifs with h1 h2 h3 h4 h5 h6 h7 h8
  all_goals first
    | assumption
    | exact absurd (F32.lt_of_le_of_lt hxy ‹_›) ‹_›
    | exact absurd (F32.le_trans hxy ‹_›) ‹_›

/-- bins at 0, 250, 500, 750 and 1000 Hz, the band being 100 to 999 Hz: eight semitone bins, the tone at 750 Hz is shared
between the last two, the bin at 1000 Hz is out of band -/
example : toLog thirdLibm [[5, 0, 0, 8, 7]] 2000 8 100 5000 = .ok [[0, 0, 0, 0, 0, 0, 3, 5]] ∧
    toLog thirdLibm [[5, 8, 0, 0, 7]] 2000 8 100 5000 = .ok [[3, 5, 0, 0, 0, 0, 0, 0]] ∧
    toLog thirdLibm [[5, 8, -3, 8, 7], [0, 0, 0, 0, 0]] 2000 8 100 5000 =
      .ok [[3, 5, 0, 0, 0, 0, 3, 5], [0, 0, 0, 0, 0, 0, 0, 0]] ∧
    toLog thirdLibm [[1], [1, 2]] 2000 8 100 5000 = R.err .invalidInput := by
  decide +kernel

/-- the premises of the theorem on one tone -/
example : ∃ hmg : OnGrid (8 : ℚ) ∧ |(8 : ℚ)| < pow2 128, ([0, -1, 0, 8, 0] : List F32)[3]? = some (fin 8 hmg) ∧
    (1 / 2 ^ 60 : ℚ) ≤ 8 ∧ F32.max 100 20 ≤ F32.ofNat 3 * (F32.ofNat 2000 / F32.ofNat 8) ∧
    F32.ofNat 3 * (F32.ofNat 2000 / F32.ofNat 8) < F32.min 5000 (F32.ofNat 2000 / 2 - 1) ∧
    (∀ p ∈ ([0, -1, 0, 8, 0] : List F32).zipIdx, p.2 ≠ 3 → p.1 ≤ 0) := by
  refine ⟨by decide +kernel, by decide +kernel, by norm_num, by decide +kernel, by decide +kernel, by decide +kernel⟩

/-- the premises of the locality theorem: the first bin (out of band) and the bin at 750 Hz (no neighbour of entry 1) differ -/
example : toLog thirdLibm [[5, 8, 0, 0, 7]] 2000 8 100 5000 = .ok [[3, 5, 0, 0, 0, 0, 0, 0]] ∧
    toLog thirdLibm [[1, 8, 0, 16, 7]] 2000 8 100 5000 = .ok [[3, 5, 0, 0, 0, 0, 6, 10]] ∧
    (∀ j ∈ [0, 3], ¬ (¬ F32.ofNat j * (F32.ofNat 2000 / F32.ofNat 8) < F32.max 100 20 ∧
      1 ∈ logTargets 8 (logPos thirdLibm 2000 8 53 j))) := by
  decide +kernel

/-! ### Where the claim fails -/

/-- **C81, violated: an empty band is reported as invalid input only when the two limits are exactly one semitone bin apart;
otherwise the number of bins, negative, is turned into an enormous unsigned one and the conversion panics.** Here the lower
limit of the band is above its upper limit. -/
theorem C81_violated : toLog saneLibm [[0, 1, 0, 0, 0]] 2000 8 880 220 = R.panic ∧
    toLog thirdLibm [[0, 1, 0, 0, 0]] 2000 8 880 220 = R.panic := by
  decide +kernel

/-- **C81, violated: a NaN magnitude is not skipped** (it is not `≤ 0`) and makes the two entries next to it NaN. -/
theorem C81_violated_nan : ∃ out, toLog thirdLibm [[0, 0, 0, nan, 0]] 2000 8 100 5000 = .ok [out] ∧ out.getD 6 0 = nan ∧
    out.getD 7 0 = nan ∧ out.getD 0 0 = 0 :=
  ⟨[0, 0, 0, 0, 0, 0, nan, nan], by decide +kernel, by decide +kernel, by decide +kernel, by decide +kernel⟩

end Verif.Props
