/-
`analyze_audio` as a whole on ordinary audio: it returns a result, or `ProcessingError` when trimming leaves nothing
(src/lib.rs lines 88-1635).
-/
import Verif.Props.WholeTempo
import Verif.Props.WholeNorm
import Verif.Props.Analyze
import Verif.Props.ReportTempo
import Verif.Props.BassBlend
import Verif.Props.BeatCount

namespace Verif.Props
open Verif Verif.Analyze Verif.Tempogram Verif.Novelty Verif.Beat F32

/-! ### More steps do not change a finished loop -/

/-- `r'` has at least the steps of `r` -/
def Steady {α} (r r' : R α) : Prop := r = R.outOfFuel ∨ r' = r

theorem steady_bind {α β} {r r' : R α} {g g' : α → R β} (h : Steady r r') (hg : ∀ a, Steady (g a) (g' a)) :
    Steady (r >>= g) (r' >>= g') := by
  rcases h with rfl | rfl
  · exact .inl rfl
  · rcases r' with e | a
    · exact .inr rfl
    · exact hg a

theorem steady_refl {α} (r : R α) : Steady r r := .inr rfl

theorem segLoop_steady {beats : List F32} {nominal last dur : F32} : ∀ {n m : ℕ}, n ≤ m → ∀ s,
    Steady (segLoop beats nominal last dur n s) (segLoop beats nominal last dur m s) := by
  intro n
  induction n with
  | zero => intro m _ s; exact .inl rfl
  | succ n ih =>
    intro m hm s
    obtain ⟨m, rfl⟩ : ∃ k, m = k + 1 := ⟨m - 1, by omega⟩
    unfold Beat.segLoop
    split_ifs
    · exact steady_bind (ih (by omega) _) fun _ => steady_refl _
    · exact steady_refl _

theorem candLoop_steady {hi : F32} : ∀ {n m : ℕ}, n ≤ m → ∀ b, Steady (candLoop hi n b) (candLoop hi m b) := by
  intro n
  induction n with
  | zero => intro m _ s; exact .inl rfl
  | succ n ih =>
    intro m hm s
    obtain ⟨m, rfl⟩ : ∃ k, m = k + 1 := ⟨m - 1, by omega⟩
    unfold candLoop
    split_ifs
    · exact steady_bind (ih (by omega) _) fun _ => steady_refl _
    · exact steady_refl _

theorem update_steady (M : Libm) {n m : ℕ} (h : n ≤ m) (b : Bayes) (os : List F32) : Steady (b.update M n os) (b.update M m os) := by
  unfold Bayes.update
  split_ifs
  · exact steady_refl _
  · exact steady_refl _
  · exact steady_bind (candLoop_steady h _) fun _ => steady_refl _

theorem refine_steady (M : Libm) {n m : ℕ} (h : n ≤ m) (os : List F32) (bs : List BeatPos) : ∀ (segs : List Seg) (b : Bayes),
    Steady (refine M n os bs segs b) (refine M m os bs segs b) := by
  intro segs
  induction segs with
  | nil => intro b; exact steady_refl _
  | cons s segs ih =>
    intro b
    unfold refine
    by_cases hv : s.isVar = true
    · simp only [if_pos hv]
      by_cases hs : os.filter (fun o => decide (s.start ≤ o) && decide (o ≤ s.stop)) ≠ []
      · simp only [if_pos hs]
        refine steady_bind (update_steady M h _ _) fun u => ?_
        obtain ⟨b', ubpm, _⟩ := u
        dsimp only
        split
        · exact steady_bind (steady_refl _) fun here => steady_bind (ih _) fun _ => steady_refl _
        · exact steady_bind (steady_refl _) fun here => steady_bind (ih _) fun _ => steady_refl _
      · simp only [if_neg hs]
        exact ih b
    · simp only [if_neg hv]
      exact steady_bind (ih b) fun _ => steady_refl _

theorem tempoSegments_steady {n m : ℕ} (h : n ≤ m) (bs : List F32) (nominal : F32) :
    Steady (tempoSegments n bs nominal) (tempoSegments m bs nominal) := by
  unfold tempoSegments
  by_cases h1 : bs.length < 4
  · simp only [if_pos h1]; exact steady_refl _
  by_cases h2 : nominal ≤ Beat.EPS
  · simp only [if_neg h1, if_pos h2]; exact steady_refl _
  by_cases h3 : bs.getLastD 0 - bs.headD 0 < 2
  · simp only [if_neg h1, if_neg h2, if_pos h3]; exact steady_refl _
  · simp only [if_neg h1, if_neg h2, if_neg h3]
    exact steady_bind (segLoop_steady h _) fun _ => steady_refl _

theorem beatGrid_steady (M : Libm) {n m : ℕ} (h : n ≤ m) (bpm conf : F32) (os : List F32) :
    Steady (beatGrid M n bpm conf os) (beatGrid M m bpm conf os) := by
  unfold beatGrid
  split_ifs
  · exact steady_refl _
  · exact steady_refl _
  refine steady_bind (steady_refl _) fun sorted => steady_bind (steady_refl _) fun bs => ?_
  dsimp only
  split_ifs
  · exact steady_refl _
  refine steady_bind (tempoSegments_steady h _ _) fun segs => ?_
  by_cases hv : hasVariation segs = true
  · simp only [if_pos hv]
    exact steady_bind (refine_steady M h _ _ _ _) fun _ => steady_refl _
  · simp only [if_neg hv]
    exact steady_refl _

theorem onset_hours {i sr : ℕ} (hi : i ≤ 2 ^ 13 * sr) (hsr : 0 < sr) (hsr' : sr ≤ 2 ^ 32) : Hours (F32.ofNat i / F32.ofNat sr) := by
  obtain ⟨v, hv, ev⟩ := isFinite_iff.1 (ofNat_finite (n := i) (by omega))
  have hs1 : (1 : ℚ) ≤ sr := by exact_mod_cast hsr
  have hsQ : F32.ofNat sr = rnd (sr : ℚ) := rfl
  obtain ⟨s, hs, es⟩ := isFinite_iff.1 (ofNat_finite (n := sr) (by omega))
  have es' : s = rndQ (sr : ℚ) := by
    have h := es
    rw [hsQ] at h
    unfold rnd at h
    split_ifs at h
    exact (fin.inj h).symm
  have hs0 : 1 ≤ s := by
    have := one_le_ofNat hsr
    rw [es, one_def] at this
    exact fin_le_fin.1 this
  have hv0 : 0 ≤ v := by
    have := ofNat_nonneg i
    rw [ev, zero_def] at this
    exact fin_le_fin.1 this
  have hv1 : v ≤ pow2 13 * s := by
    have h1 := ofNat_mono hi
    obtain ⟨w, hw, ew⟩ := isFinite_iff.1 (ofNat_finite (n := 2 ^ 13 * sr) (by omega))
    rw [ev, ew] at h1
    have h2 := fin_le_fin.1 h1
    have ew' : w = rndQ ((2 ^ 13 * sr : ℕ) : ℚ) := by
      have h : rnd ((2 ^ 13 * sr : ℕ) : ℚ) = fin w hw := ew
      unfold rnd at h
      split_ifs at h
      exact (fin.inj h).symm
    have e13 : ((2 ^ 13 * sr : ℕ) : ℚ) = pow2 13 * (sr : ℚ) := by
      push_cast; congr 1
    rw [e13, rndQ_scale (by
      rw [abs_of_nonneg (by linarith)]
      exact (pow2_le (by norm_num : (-126 : ℤ) ≤ 0)).trans (by rw [show pow2 0 = 1 from by decide +kernel]; exact hs1)) (by norm_num), ← es'] at ew'
    rw [← ew']; exact h2
  rw [ev, es, div_fin (by linarith)]
  have e13 : pow2 13 = 2 ^ 13 := by have := pow2_nat 13; exact_mod_cast this
  constructor
  · rw [zero_def]; exact fin_le_rnd (by positivity)
  · rw [show (8192 : F32) = fin 8192 (by decide +kernel) by decide +kernel]
    refine rnd_le_fin ?_
    rw [div_le_iff₀ (by linarith)]
    rw [e13] at hv1
    norm_num at hv1 ⊢
    exact hv1

/-- the beat stage returns, with the same grid however many steps its loops are given -/
theorem beats_returns {L : Lib} (hE : ExpSmall L.M) {ons : List ℕ} (ho : ∀ o ∈ ons, o < 2 ^ 30) {sr : ℕ} (hsr : 1000 ≤ sr)
    (hsr' : sr ≤ 2 ^ 32) (bpm conf : F32) :
    Returns (fun g => (∀ o ∈ ons, o ≤ 2 ^ 13 * sr) → g.1.beats.length ≤ 2 ^ 30 + 2 ^ 29) (fun fuel => beats { L with fuel := fuel } bpm conf ons sr) := by
  obtain ⟨g, e⟩ := beats_settle hE ho hsr hsr' bpm conf (le_refl (2 ^ 27))
  have hcount : (∀ o ∈ ons, o ≤ 2 ^ 13 * sr) → g.1.beats.length ≤ 2 ^ 30 + 2 ^ 29 := by
    intro hh
    have e' := e
    unfold beats at e'
    split_ifs at e' with h
    · cases hg : Beat.beatGrid L.M (2 ^ 27) bpm conf (ons.map (fun i => F32.ofNat i / F32.ofNat sr)) with
      | ok g' =>
        have h2 : orElse (⟨[], [], []⟩, 0) (.ok g') = .ok g := by rw [← hg]; exact e'
        obtain rfl : g' = g := Except.ok.inj h2
        exact grid_count hE (fun o h => by
          obtain ⟨i, hi, rfl⟩ := List.mem_map.1 h
          exact onset_hours (hh i hi) (by omega) hsr') hg
      | error f =>
        have h2 : orElse (⟨[], [], []⟩, 0) (.error f) = .ok g := by rw [← hg]; exact e'
        cases f with
        | err k =>
          obtain rfl := Except.ok.inj h2
          simp
        | _ => exact absurd h2 (by simp [orElse, attempt])
    · obtain rfl := Except.ok.inj e'
      simp
  refine ⟨2 ^ 27, g, hcount, fun fuel hf => ?_⟩
  rw [← e]
  have key : Steady (beats { L with fuel := 2 ^ 27 } bpm conf ons sr) (beats { L with fuel := fuel } bpm conf ons sr) := by
    unfold beats
    split_ifs
    · rcases beatGrid_steady L.M hf bpm conf (ons.map (fun i => F32.ofNat i / F32.ofNat sr)) with h | h
      · left; dsimp only; rw [h]; rfl
      · right; dsimp only; rw [h]
    · exact steady_refl _
  rcases key with h | h
  · rw [e] at h; simp at h
  · exact h

/-! ### Audio and settings -/

/-- libraries that behave like the ones in use, as far as ranges are concerned -/
structure GoodLib (L : Lib) : Prop where
  key : KeyLib L
  ln : LnSane L.M
  fft : FftTame L.M L.fft
  exp : ExpSmall L.M
  gain : GainLib L.M

theorem GoodLib.tempo {L : Lib} (h : GoodLib L) : TempoLib L := ⟨h.key.cos, h.key.sfft, h.ln, h.fft, h.exp⟩

/-- ordinary audio: samples in `[-1, 1]`; for peak normalization any finite samples below `2^126`, for loudness normalization
one of them at least `2^-60` -/
def OrdinaryAudio (c : Config) (s : List F32) : Prop :=
  if c.enableNormalization then
    match c.normalization with
    | .peak => ∀ v ∈ s, v.abs ≤ rnd (pow2 126)
    | .rms => FullScale s
    | .loudness => FullScale s ∧ ∃ v ∈ s, rnd (pow2 (-60)) ≤ v.abs
  else FullScale s

theorem finite_of_abs_le {v : F32} {B : ℚ} (hB : (rnd B).isFinite = true) (h : v.abs ≤ rnd B) : v.isFinite = true := by
  have hn : v ≠ nan := by rintro rfl; exact ne_nan_left h rfl
  have hf : v.abs.isFinite = true := isFinite_of_between (lo := 0) (by decide +kernel) hB (F32.abs_nonneg hn) h
  rwa [isFinite_abs] at hf

theorem normalized_ok {L : Lib} (hL : GainLib L.M) {c : Config} {s : List F32} (h0 : s ≠ []) (hl : s.length ≤ 2 ^ 30)
    (hs : OrdinaryAudio c s) {sr : ℕ} (hsr : 1000 ≤ sr) : ∃ y, normalized L c s sr = .ok y ∧ y.length = s.length ∧ FullScale y := by
  unfold normalized
  unfold OrdinaryAudio at hs
  split_ifs at hs ⊢ with hn
  swap
  · exact ⟨s, rfl, rfl, hs⟩
  rcases hm : c.normalization <;> rw [hm] at hs
  · dsimp only at hs
    obtain ⟨y, m, e⟩ : ∃ y m, Norm.normalize L.M s ⟨-14, 1, .peak⟩ (F32.ofNat sr) = .ok (y, m) := by
      unfold Norm.normalize
      simp only [Norm.normalizePeak, if_neg h0]
      split_ifs
      · exact ⟨_, _, rfl⟩
      · exact ⟨_, _, rfl⟩
    obtain ⟨hl, hy⟩ := C04_peak_never_clips_partial L.M hL.nonneg s ⟨-14, 1, .peak⟩ (F32.ofNat sr) rfl y m e
      (fun x hx _ => hs x hx)
    refine ⟨y, by rw [e]; rfl, hl, fun v hv => ?_⟩
    obtain ⟨i, hi, rfl⟩ := List.mem_iff_getElem.1 hv
    have hi' : i < s.length := by omega
    exact hy i s[i] y[i] (List.getElem?_eq_getElem hi') (List.getElem?_eq_getElem hi)
      (finite_of_abs_le (by decide +kernel) (hs _ (List.getElem_mem hi')))
  · obtain ⟨y, m, e, hy⟩ := rms_full hL h0 hs (F32.ofNat sr)
    exact ⟨y, by rw [e]; rfl, hy⟩
  · obtain ⟨y, m, e, hy⟩ := loudness_full hL h0 hl hs.1 hs.2 hsr
    exact ⟨y, by rw [e]; rfl, hy⟩

/-! ### Everything after preprocessing -/

/-- what the result of a finished analysis of `n` samples looks like -/
structure GoodResult (c : Config) (sr n : ℕ) (r : Result) : Prop where
  key : ValidKey r.key
  keyConf : InUnit r.keyConf
  clarity : UnitOrNaN r.keyClarity
  clarity' : c.enableEnsemble = false → c.enableMultiScale = false → InUnit r.keyClarity
  duration : r.duration = F32.ofNat n / F32.ofNat sr
  tempo : c.forceLegacy = false → c.minBpm ≤ 70 → 180 ≤ c.maxBpm → c.frame + c.hop ≤ n → c.minBpm ≤ r.bpm ∧ r.bpm ≤ c.maxBpm

theorem hop_pos {c : Config} {sr : ℕ} (hc : TempoCfg c sr) : 0 < c.hop := by
  have := hc.params.hop
  unfold tempoParams at this
  rcases Nat.eq_zero_or_pos c.hop with h | h
  · simp [h] at this
  · exact h

theorem analyzeTrimmed_returns {L : Lib} (hL : GoodLib L) {c : Config} (hk : KeyCfg c) {sr : ℕ} (hc : TempoCfg c sr)
    (hsr : 1000 ≤ sr) (hsr' : sr ≤ 2 ^ 32) {x : List F32} (hx : FullScale x) (hlen : x.length ≤ 2 ^ 30)
    (hbeat : c.enableBeatSync = true → x.length ≤ 2 ^ 13 * sr) :
    Returns (GoodResult c sr x.length) (fun fuel => analyzeTrimmed { L with fuel := fuel } c x sr) := by
  have hop := hop_pos hc
  have hf2 := hc.frame2
  unfold analyzeTrimmed
  obtain ⟨energy, e1, _, h1, _⟩ := (C08_energy_flux_onsets L.M x c.frame c.hop (-20)).2 (by
    rintro ⟨_, h | h⟩ <;> omega)
  refine returns_bind (P := fun l => energy = l) (returns_const e1 rfl) ?_
  rintro _ rfl
  obtain ⟨spec, e2, h2, h2'⟩ := stft_plain hL.key.cos hL.key.sfft hx hc.frame2 hc.frame hop
  refine returns_bind (P := fun l => spec = l) (returns_const e2 rfl) ?_
  rintro _ rfl
  have hen : ∀ o ∈ energy, c.hop ≤ o ∧ o < x.length := by
    intro o ho
    obtain ⟨a, b, d⟩ := h1 o ho
    exact ⟨Nat.le_of_dvd a d, by omega⟩
  obtain ⟨ons, e3, h3⟩ := onsets_ok (c := c) (energy := energy) (spec := spec) (n := x.length) (sr := sr) (by omega) hen
  refine returns_bind (P := fun l => ons = l) (returns_const e3 rfl) ?_
  rintro _ rfl
  have hsl : spec.length ≤ 2 ^ 30 := by
    have := Nat.div_le_self (x.length - c.frame) c.hop
    rw [h2]; split_ifs <;> omega
  obtain ⟨N, hN⟩ := hc.comb
  refine returns_bind (legacy_returns L (fun o ho => ⟨(h3 o ho).1, by have := (h3 o ho).2; omega⟩) hop hsr hsr'
    hc.params.min hc.params.lt hc.params.res0 hc.rate hN) fun leg _ => ?_
  obtain ⟨Nt, t, ht, et⟩ := tempo_returns hL.tempo hc hx hlen h2' (hsl.trans (by norm_num))
  refine returns_bind (P := fun t' => t = t') ⟨Nt, t, rfl, et⟩ ?_
  rintro _ rfl
  refine returns_bind (beats_returns hL.exp (fun o ho => by have := (h3 o ho).2; omega) hsr hsr' _ _) fun g hbts => ?_
  obtain ⟨k, e4, k1, k2, k3, k4⟩ := keyPart_ok hL.key hk hsr hsr' hx hlen (spec := spec) (fun _ => ⟨hsl, h2', fun h14 => by
    obtain ⟨spec', e', -, h'⟩ := stft_mags hL.key.cos hL.key.sfft hx hc.frame2 (k := 14) (by norm_num) h14 hop
    rw [e2] at e'
    cases e'
    exact h'⟩) (fun hb => hbts fun o ho => by have := (h3 o ho).2; have := hbeat hb; omega)
  refine returns_bind (P := fun k' => k = k') (returns_const e4 rfl) ?_
  rintro _ rfl
  refine ⟨0, report L x.length sr energy t (Pipeline.selectBpm c.forceLegacy c.enableFusion t.est leg) g k, ?_, fun _ _ => rfl⟩
  refine ⟨k1, k2, k3, k4, rfl, fun hfl hlo hhi hn => ?_⟩
  have hrows : 2 ≤ spec.length := by
    rw [h2, if_neg (by omega)]
    have : 1 ≤ (x.length - c.frame) / c.hop := (Nat.one_le_div_iff hop).2 (by omega)
    omega
  obtain ⟨e, he⟩ := Option.isSome_iff_exists.1 (ht hfl hrows)
  have hr := tempo_range hlo hhi (et Nt le_rfl) he
  have hpos : ∀ e', t.est = some e' → 0 < e'.bpm := by
    intro e' h
    rw [he] at h
    obtain rfl := Option.some.inj h
    exact F32.lt_of_lt_of_le (F32.lt_of_lt_of_le zero_lt_one hc.params.min) hr.1
  show c.minBpm ≤ (Pipeline.selectBpm c.forceLegacy c.enableFusion t.est leg).1 ∧ (Pipeline.selectBpm c.forceLegacy c.enableFusion t.est leg).1 ≤ c.maxBpm
  rcases selectBpm_cases c.forceLegacy c.enableFusion t.est leg hpos with ⟨_, e', h', eb, _⟩ | ⟨h', _⟩ | ⟨h', _⟩
  · rw [he] at h'
    obtain rfl := Option.some.inj h'
    rw [eb]; exact ⟨hr.1, hr.2.1⟩
  · rw [hfl, he] at h'; simp at h'
  · rw [hfl, he] at h'; simp at h'

/-! ### The whole analysis -/

theorem slice_full {y : List F32} (h : FullScale y) (a k : ℕ) : FullScale ((y.drop a).take k) :=
  fun v hv => h v (List.mem_of_mem_drop (List.mem_of_mem_take hv))

/-- every frame that silence detection looks at is below the threshold -/
def AllSilent (L : Lib) (c : Config) (y : List F32) : Prop :=
  ∀ k, IsFrame y.length c.frame k → SilentFrame y c.frame (L.M.powf 10 (c.minAmplitudeDb / 20)) k

/-- **C90.** Ordinary audio at 1 kHz or more (at most `2^30` samples; with beat-synchronous chroma at most 8192 seconds) is
always analysed: with trimming on and nothing above
the threshold the answer is `ProcessingError`; otherwise it is a result with a valid key, key confidence in [0, 1] and, from
two frames of audio on, a tempo inside the configured range.  It does not panic, does not loop, and returns no other error. -/
theorem C90_succeeds (L : Lib) (c : Config) (s : List F32) (sr : ℕ) (hL : GoodLib L) (hk : KeyCfg c) (hc : TempoCfg c sr)
    (hsr : 1000 ≤ sr) (hsr' : sr ≤ 2 ^ 32) (h0 : s ≠ []) (hlen : s.length ≤ 2 ^ 30) (hs : OrdinaryAudio c s)
    (hbeat : c.enableBeatSync = true → s.length ≤ 2 ^ 13 * sr) :
    ∃ y, normalized L c s sr = .ok y ∧ y.length = s.length ∧
      (c.enableSilenceTrimming = true ∧ AllSilent L c y → ∀ fuel, analyze { L with fuel := fuel } c s sr = R.err .processing) ∧
      (¬ (c.enableSilenceTrimming = true ∧ AllSilent L c y) → ∃ N r n, 0 < n ∧ n ≤ s.length ∧ GoodResult c sr n r ∧
        (c.enableSilenceTrimming = false → n = s.length) ∧
        ∀ fuel, N ≤ fuel → analyze { L with fuel := fuel } c s sr = .ok r) := by
  obtain ⟨y, ey, ly, fy⟩ := normalized_ok hL.gain h0 hlen hs hsr
  have hy0 : y ≠ [] := by rintro rfl; exact h0 (List.length_eq_zero_iff.1 ly.symm)
  refine ⟨y, ey, ly, ?_, ?_⟩
  · rintro ⟨ht, hsil⟩ fuel
    exact (C83_silence { L with fuel := fuel } c s y sr h0 (by omega) hc.frame2 ht ey hy0).1 hsil
  · intro hno
    by_cases ht : c.enableSilenceTrimming = true
    · have hns : ¬ AllSilent L c y := fun h => hno ⟨ht, h⟩
      unfold AllSilent at hns
      push Not at hns
      obtain ⟨x, m, ex, hiff⟩ := trim_empty_iff L.M y sr ⟨c.minAmplitudeDb, 500, c.frame⟩ hy0 (by omega) hc.frame2
      have hx0 : x ≠ [] := fun h => by
        obtain ⟨k, hk1, hk2⟩ := hns
        exact hk2 (hiff.1 h k hk1)
      obtain ⟨⟨a, b, hab, hb, rfl⟩, _⟩ := C01_trim_contiguous L.M y sr _ x m ex
      have hl : ((y.drop a).take (b - a)).length ≤ s.length := by
        rw [List.length_take, List.length_drop]; omega
      obtain ⟨N, r, hr, er⟩ := analyzeTrimmed_returns hL hk hc hsr hsr' (slice_full fy a (b - a)) (by omega)
        (fun hb => hl.trans (hbeat hb))
      refine ⟨N, r, _, List.length_pos_iff.2 hx0, hl, hr, fun h => (by rw [ht] at h; cases h), fun fuel hf => ?_⟩
      have ey' : normalized { L with fuel := fuel } c s sr = .ok y := ey
      have et : trimmed { L with fuel := fuel } c y sr = .ok ((y.drop a).take (b - a)) := by
        unfold trimmed; rw [if_pos ht]; dsimp only; rw [ex]; rfl
      unfold analyze
      rw [if_neg h0, if_neg (by omega), ey', R.ok_bind, et, R.ok_bind, if_neg hx0]
      exact er fuel hf
    · obtain ⟨N, r, hr, er⟩ := analyzeTrimmed_returns hL hk hc hsr hsr' fy (by omega) (fun hb => ly.trans_le (hbeat hb))
      refine ⟨N, r, s.length, List.length_pos_iff.2 h0, le_rfl, by rw [← ly]; exact hr, fun _ => rfl, fun fuel hf => ?_⟩
      have ey' : normalized { L with fuel := fuel } c s sr = .ok y := ey
      have et : trimmed { L with fuel := fuel } c y sr = .ok y := by unfold trimmed; rw [if_neg ht]
      unfold analyze
      rw [if_neg h0, if_neg (by omega), ey', R.ok_bind, et, R.ok_bind, if_neg hy0]
      exact er fuel hf

/-- `AnalysisConfig::default()` is within the settings above for every sample rate from 1 kHz on -/
theorem default_key : KeyCfg {} := by
  constructor <;> decide +kernel

theorem default_tempo {sr : ℕ} (hsr : 1000 ≤ sr) (hsr' : sr ≤ 2 ^ 32) : TempoCfg {} sr := by
  have hm : F32.ofNat 1000 ≤ F32.ofNat sr := ofNat_mono hsr
  refine ⟨by decide, by decide, ?_, ⟨401, by unfold CombRange; decide +kernel⟩, ?_, ?_, ?_⟩
  · constructor
    · exact (by omega : 0 < sr)
    · exact hsr'
    · exact (by decide : 0 < ({} : Config).hop % 2 ^ 32)
    · exact (by decide +kernel : 1 ≤ ({} : Config).minBpm)
    · exact (by decide +kernel : ({} : Config).minBpm < ({} : Config).maxBpm)
    · exact (by decide +kernel : ({} : Config).maxBpm.isFinite = true)
    · exact (by decide +kernel : 0 < ({} : Config).bpmRes)
    · exact (by decide +kernel : ({} : Config).bpmRes.isFinite = true)
    · exact (by decide +kernel : ({} : Config).maxBpm.val ≤ 2 ^ 22 * ({} : Config).bpmRes.val)
  · refine F32.le_trans (b := 60 * F32.ofNat 1000) (by decide +kernel) ?_
    exact F32.mul_le_mul_of_nonneg_left hm (by decide +kernel) (by decide +kernel) (mul_fin_ne_nan (by decide +kernel) (ofNat_finite (by omega)))
  · constructor
    rotate_right
    · intro _
      refine F32.le_trans (b := F32.ofNat 1000 * 0.5) (by decide +kernel) ?_
      rw [F32.mul_comm, F32.mul_comm (F32.ofNat sr)]
      exact F32.mul_le_mul_of_nonneg_left hm (by decide +kernel) (by decide +kernel) (mul_fin_ne_nan (by decide +kernel) (ofNat_finite (by omega)))
    all_goals first | decide +kernel | (unfold Weight; decide +kernel)
  · constructor <;> exact nb_mono (m := 0) (by norm_num) (nb_le_one (by decide +kernel) (by decide +kernel))

/-- **C90 (default settings).** `analyze_audio(samples, sample_rate, AnalysisConfig::default())` on finite samples below
`2^126`, at most `2^30` of them, at 1 kHz or more: `ProcessingError` when every frame of the normalized audio is below -40 dB,
otherwise a result; if more than two frames are left after trimming, the tempo is in [40, 240] BPM. -/
theorem C90_default (L : Lib) (s : List F32) (sr : ℕ) (hL : GoodLib L) (hsr : 1000 ≤ sr) (hsr' : sr ≤ 2 ^ 32) (h0 : s ≠ [])
    (hlen : s.length ≤ 2 ^ 30) (hs : ∀ v ∈ s, v.abs ≤ rnd (pow2 126)) :
    ∃ y, normalized L {} s sr = .ok y ∧ y.length = s.length ∧
      ((∀ k, IsFrame y.length 2048 k → SilentFrame y 2048 (L.M.powf 10 (-40 / 20)) k) →
        ∀ fuel, analyze { L with fuel := fuel } {} s sr = R.err .processing) ∧
      (∀ k, IsFrame y.length 2048 k → ¬ SilentFrame y 2048 (L.M.powf 10 (-40 / 20)) k →
        ∃ N r n, (∀ fuel, N ≤ fuel → analyze { L with fuel := fuel } {} s sr = .ok r) ∧ ValidKey r.key ∧ InUnit r.keyConf ∧
          InUnit r.keyClarity ∧ r.duration = F32.ofNat n / F32.ofNat sr ∧ 0 < n ∧ n ≤ s.length ∧
          (2048 + 512 ≤ n → 40 ≤ r.bpm ∧ r.bpm ≤ 240)) := by
  obtain ⟨y, ey, ly, h1, h2⟩ := C90_succeeds L {} s sr hL default_key (default_tempo hsr hsr') hsr hsr' h0 hlen hs
    (fun h => absurd h (by decide))
  refine ⟨y, ey, ly, fun h => h1 ⟨rfl, h⟩, fun k hk hk' => ?_⟩
  obtain ⟨N, r, n, n0, n1, hr, -, er⟩ := h2 (fun h => hk' (h.2 k hk))
  exact ⟨N, r, n, er, hr.key, hr.keyConf, hr.clarity' rfl rfl, hr.duration, n0, n1,
    fun hn => hr.tempo rfl (by decide +kernel) (by decide +kernel) hn⟩

/-! ### The hypotheses can be met -/

/-- a library in the assumed ranges -/
def plainLibm : Libm := { rampLibm with
  powf := fun x p => if x = nan then nan else if p < -1 then 0.001 else if p < 0 then 0.9 else F32.clamp x 0 1
  exp := fun _ => 0
  log2 := fun _ => 0
  cos := fun _ => 0
  sin := fun _ => 0
  atan2 := fun _ _ => 0
  log10 := fun _ => 0 }

def plainLib : Lib := ⟨plainLibm, plainSfft, zeroFft, fun _ _ => 0, halfPow, topSel, id, id, fun _ => [], 0⟩

theorem plain_powf_clamp {x p : F32} (hx : x ≠ nan) (hp : 0 ≤ p) : plainLibm.powf x p = F32.clamp x 0 1 := by
  show (if x = nan then nan else if p < -1 then 0.001 else if p < 0 then 0.9 else F32.clamp x 0 1) = _
  have h1 : ¬ p < 0 := fun h => not_le_of_lt h hp
  have h2 : ¬ p < -1 := fun h => h1 (F32.lt_of_lt_of_le h (by decide +kernel))
  rw [if_neg hx, if_neg h2, if_neg h1]

theorem plain_powf_unit {x p : F32} (hx : 0 ≤ x) (hp : 0 ≤ p) : 0 ≤ plainLibm.powf x p ∧ plainLibm.powf x p ≤ 1 := by
  rw [plain_powf_clamp (ne_nan_right hx) hp]
  exact clamp01 (ne_nan_right hx)

theorem plain_good : GoodLib plainLib where
  key :=
    { cos := fun x _ => (by decide +kernel : (-1 : F32) ≤ 0 ∧ (0 : F32) ≤ 1)
      sfft :=
        { len := fun l => List.length_map _
          bound := fun k _ l _ h z hz => by
            obtain ⟨v, hv, rfl⟩ := List.mem_map.1 hz
            have h1 : (1 : F32) ≤ rnd (pow2 (k + 1 : ℕ)) := by
              rw [(by decide +kernel : (1 : F32) = rnd 1)]
              exact rnd_mono (one_le_pow2_nat _)
            exact ⟨F32.le_trans (h v hv) h1, F32.le_trans (by decide +kernel : (0 : F32).abs ≤ 1) h1⟩ }
      sane :=
        { powf_range := fun x h _ => by
            have := plain_powf_unit h (p := 0.6) (by decide +kernel)
            exact ⟨this.1, F32.le_trans this.2 (by decide +kernel)⟩
          powf_zero := by decide +kernel
          exp_range := fun x _ => (by decide +kernel : (0 : F32) ≤ 0 ∧ (0 : F32) ≤ 1)
          log2_range := fun x _ _ => ⟨0, grid_zero, zero_def, by norm_num⟩ }
      pow :=
        { powf_range := fun x p h _ hp _ => by
            have := plain_powf_unit h (p := p) (F32.le_trans (by decide +kernel) hp)
            exact ⟨this.1, F32.le_trans this.2 (by decide +kernel)⟩
          powf_zero := fun p hp _ => by
            show plainLibm.powf 0 p = 0
            rw [plain_powf_clamp (by decide +kernel) (F32.le_trans (by decide +kernel) hp)]; decide +kernel
          powi_range := powSane_demo.powi_range }
      key :=
        { nan := fun p => .inl rfl
          unit := fun x p h _ hp => plain_powf_unit h hp
          root := fun x p h _ hp _ => by
            have := plain_powf_unit h hp
            exact ⟨this.1, F32.le_trans this.2 (by decide +kernel)⟩
          nonneg := fun x p h hp => (plain_powf_unit h (F32.le_trans (by decide +kernel) hp)).1
          square := fun x p h _ hp _ => by
            have := plain_powf_unit h (p := p) (F32.le_trans (by decide +kernel) hp)
            exact isFinite_of_between (by decide +kernel) (by decide +kernel) this.1 this.2 }
      trig :=
        { sin_range := fun _ _ => ⟨0, grid_zero, zero_def, by norm_num⟩
          cos_range := fun _ _ => ⟨0, grid_zero, zero_def, by norm_num⟩
          atan2_range := fun _ _ _ _ => ⟨0, grid_zero, zero_def, by decide +kernel⟩
          root_range := fun x h _ => by
            have := plain_powf_unit h (p := 0.5) (by decide +kernel)
            exact ⟨this.1, F32.le_trans this.2 (by decide +kernel)⟩
          root_zero := by decide +kernel }
      mono := fun _ _ _ _ _ => (by decide +kernel : (0 : F32) ≤ 0)
      sel := topSel_topK
      ord := fun l => List.Perm.refl l
      ord2 := fun l => List.Perm.refl l }
  ln := ramp_sane
  fft := zero_tame _
  exp := fun x _ => (by decide +kernel : ¬ (0.1 : F32) < 0)
  gain :=
    { lufs :=
        { pow := fun y _ => by
            show (if (10 : F32) = nan then nan else if y < -1 then 0.001 else if y < 0 then 0.9 else F32.clamp 10 0 1) ≠ nan
            split_ifs <;> first | decide +kernel | (rename_i h; exact absurd h (by decide +kernel))
          gate := by decide +kernel
          log := fun x _ => (by decide +kernel : (0 : F32) ≠ nan) }
      rms := by decide +kernel
      head := by decide +kernel
      nonneg := fun y => by
        show ¬ (if (10 : F32) = nan then nan else if y < -1 then 0.001 else if y < 0 then 0.9 else F32.clamp 10 0 1) < 0
        split_ifs <;> decide +kernel }

/-- `n` periods of a square wave -/
def square (n : ℕ) : List F32 := (List.replicate n [(0.5 : F32), 0.5, -0.5, -0.5]).flatten

theorem square_small (n : ℕ) : ∀ v ∈ square n, v.abs ≤ rnd (pow2 126) := by
  intro v hv
  obtain ⟨l, hl, hv⟩ := List.mem_flatten.1 hv
  rw [List.eq_of_mem_replicate hl] at hv
  exact (by decide +kernel : ∀ v ∈ [(0.5 : F32), 0.5, -0.5, -0.5], v.abs ≤ rnd (pow2 126)) v hv

/-- the hypotheses of `C90_default`, for 4096 samples at 44.1 kHz -/
example : GoodLib plainLib ∧ square 1024 ≠ [] ∧ (square 1024).length = 4096 ∧ ∀ v ∈ square 1024, v.abs ≤ rnd (pow2 126) :=
  ⟨plain_good, by decide +kernel, by decide +kernel, square_small _⟩

/-- settings with the optional stages of the key branch turned on -/
example : KeyCfg { enableLogFreq := true, enableTuning := true, enableHarmonicMask := false, sharpening := 2, enableTimeSmoothing := true } ∧
    KeyCfg { enableBass := true, enableTuning := true, enableEnsemble := true, enableMinorBonus := true } ∧
    KeyCfg { enableHpcp := false, enableTuning := true, enableKeyHpss := true, enableMultiScale := true } := by
  refine ⟨?_, ?_, ?_⟩ <;> (constructor <;> decide +kernel)

/-- a short frame; the other settings are the default -/
def shortFrame : Config := { frame := 16, hop := 4 }

theorem short_key : KeyCfg shortFrame := by
  constructor <;> decide +kernel

theorem short_tempo : TempoCfg shortFrame 44100 := by
  have h := default_tempo (sr := 44100) (by norm_num) (by norm_num)
  refine ⟨by decide, by decide, ?_, h.comb, h.rate, h.band, h.weights⟩
  obtain ⟨h1, h2, h3, h4, h5, h6, h7, h8, h9⟩ := h.params
  exact ⟨h1, h2, by decide, h4, h5, h6, h7, h8, h9⟩

/-- ... and a run on 64 samples that are not silent: a result, with a tempo in the range as soon as 20 samples are left -/
example : ∃ N r n, (∀ fuel, N ≤ fuel → analyze { plainLib with fuel := fuel } shortFrame (square 16) 44100 = .ok r) ∧ ValidKey r.key ∧
    r.duration = F32.ofNat n / 44100 ∧ (20 ≤ n → 40 ≤ r.bpm ∧ r.bpm ≤ 240) := by
  obtain ⟨y, ey, ly, -, h⟩ := C90_succeeds plainLib shortFrame (square 16) 44100 plain_good short_key short_tempo (by norm_num)
    (by norm_num) (by decide +kernel) (by decide +kernel) (square_small _) (fun h => absurd h (by decide))
  have hy : (match normalized plainLib shortFrame (square 16) 44100 with
    | .ok y => decide (Silence.frameRms (Silence.frame y 16 0) ≤ plainLibm.powf 10 (-40 / 20))
    | _ => true) = false := by decide +kernel
  rw [ey] at hy
  obtain ⟨N, r, n, -, -, hr, -, e⟩ := h (fun hs => of_decide_eq_false hy (hs.2 0 (by rw [ly]; unfold IsFrame; decide +kernel)))
  refine ⟨N, r, n, e, hr.key, ?_, fun hn => hr.tempo rfl (by decide +kernel) (by decide +kernel) hn⟩
  rw [hr.duration, (by decide +kernel : F32.ofNat 44100 = 44100)]

end Verif.Props
