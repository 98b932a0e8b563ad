/-
C96: two analyses of the same audio, which differ only in the seeds of the hash maps.
-/
import Verif.Props.KeyDetect
import Verif.Props.HpcpPeaks
import Verif.Model.Analyze

namespace Verif.Props
open Verif F32 Analyze KeyDet
open Verif.Keys (Key)

/-- specification: two detections agree on everything but the key -/
def Alike : R Res → R Res → Prop
  | .ok r, .ok r' => r.all = r'.all ∧ r.top = r'.top ∧ r.conf = r'.conf
  | .error e, .error e' => e = e'
  | _, _ => False

theorem Alike.refl (a : R Res) : Alike a a := by
  cases a with
  | error e => exact rfl
  | ok r => exact ⟨rfl, rfl, rfl⟩

abbrev HashOrder := List (Key × F32) → List (Key × F32)

theorem detectKey_alike {ord ord' : HashOrder} (h : ∀ l, (ord l).Perm l) (h' : ∀ l, (ord' l).Perm l)
    (cs : List (List F32)) (T : Templates) (w : Option (List F32)) :
    Alike (detectKey ord cs T w) (detectKey ord' cs T w) := by
  rcases e : detectKey ord cs T w with er | r
  · rcases e' : detectKey ord' cs T w with er' | r'
    · unfold detectKey at e e'
      split_ifs at e e'
      · rw [R.err, Except.error.injEq] at e e'; exact e.symm.trans e'
      · rw [R.err, Except.error.injEq] at e e'; exact e.symm.trans e'
      · rw [R.err, Except.error.injEq] at e e'; exact e.symm.trans e'
      · rcases hs : sortDescP Prod.snd (refineScores (normScores (rawScores cs T w))) with x | x
        · rw [hs] at e e'
          rw [R.error_bind, Except.error.injEq] at e e'
          exact e.symm.trans e'
        · rw [hs] at e; cases e
    · exfalso
      unfold detectKey at e e'
      split_ifs at e e'
      rcases hs : sortDescP Prod.snd (refineScores (normScores (rawScores cs T w))) with x | x
      · rw [hs] at e'; cases e'
      · rw [hs] at e; cases e
  · rcases e' : detectKey ord' cs T w with er' | r'
    · exfalso
      unfold detectKey at e e'
      split_ifs at e e'
      rcases hs : sortDescP Prod.snd (refineScores (normScores (rawScores cs T w))) with x | x
      · rw [hs] at e; cases e
      · rw [hs] at e'; cases e'
    · obtain ⟨a, b, c, _⟩ := C41_deterministic_partial ord ord' h h' cs T w r r' e e'
      exact ⟨a, b, c⟩

theorem detectKeyMode_alike {ord ord' : HashOrder} (h : ∀ l, (ord l).Perm l) (h' : ∀ l, (ord' l).Perm l)
    (cs : List (List F32)) (T : Templates) (w : Option (List F32)) (tm fl : F32) (bonus : Bool) (bw : F32) :
    Alike (detectKeyMode ord cs T w tm fl bonus bw) (detectKeyMode ord' cs T w tm fl bonus bw) := by
  have hb := detectKey_alike h h' cs T w
  unfold detectKeyMode
  rcases e : detectKey ord cs T w with er | r <;> rcases e' : detectKey ord' cs T w with er' | r' <;> rw [e, e'] at hb
  · exact hb
  · exact hb.elim
  · exact hb.elim
  · simp only [R.ok_bind]
    split_ifs
    · exact hb
    · exact hb
    · rw [hb.1]; exact Alike.refl _

/-- whenever the mode heuristic (or the bonus) has any weight to work on, the hash order has no influence at all -/
theorem detectKeyMode_same {ord ord' : HashOrder} (h : ∀ l, (ord l).Perm l) (h' : ∀ l, (ord' l).Perm l)
    (cs : List (List F32)) (T : Templates) (w : Option (List F32)) (tm fl : F32) (bonus : Bool) (bw : F32)
    (hon : bonus = true ∨ 0 < F32.clamp fl 0 1) (hw : ¬ (chromaSum cs w).2 ≤ 1e-9) :
    detectKeyMode ord cs T w tm fl bonus bw = detectKeyMode ord' cs T w tm fl bonus bw := by
  have hb := detectKey_alike h h' cs T w
  have hc : ¬ (bonus = false ∧ ¬ 0 < F32.clamp fl 0 1) := by
    rintro ⟨a, b⟩
    rcases hon with x | x
    · rw [a] at x; cases x
    · exact b x
  unfold detectKeyMode
  rcases e : detectKey ord cs T w with er | r <;> rcases e' : detectKey ord' cs T w with er' | r' <;> rw [e, e'] at hb
  · rw [show er = er' from hb]
  · exact hb.elim
  · exact hb.elim
  · simp only [R.ok_bind]
    rw [if_neg hc, if_neg hc, if_neg hw, if_neg hw, hb.1]

theorem detectWith_alike {ord ord' : HashOrder} (h : ∀ l, (ord l).Perm l) (h' : ∀ l, (ord' l).Perm l)
    (cs : List (List F32)) (T : Templates) (w : Option (List F32)) (m : Bool) (tm fl : F32) (bonus : Bool) (bw : F32) :
    Alike (detectWith ord cs T w m tm fl bonus bw) (detectWith ord' cs T w m tm fl bonus bw) := by
  unfold detectWith
  split_ifs
  · exact detectKeyMode_alike h h' _ _ _ _ _ _ _
  · exact detectKeyMode_alike h h' _ _ _ _ _ _ _
  · exact detectKey_alike h h' _ _ _

theorem segLoop_alike {det det' : List (List F32) → Option (List F32) → R Res} (hd : ∀ c w, Alike (det c w) (det' c w))
    (cs : List (List F32)) (w : Option (List F32)) (mc : F32) (len : ℕ) : ∀ (ss : List ℕ) (acc : List (Key × F32) × ℕ),
    segLoop det cs w mc len ss acc = segLoop det' cs w mc len ss acc := by
  intro ss
  induction ss with
  | nil => intro acc; rfl
  | cons s ss ih =>
    intro acc
    unfold segLoop
    rcases slice cs s (s + len) with e | seg
    · rfl
    simp only [R.ok_bind]
    have key : ∀ ws : Option (List F32), (do
        let r ← det seg ws
        let q ← keyClarity r.all
        segLoop det cs w mc len ss (addSegment mc q acc r)) = (do
        let r ← det' seg ws
        let q ← keyClarity r.all
        segLoop det' cs w mc len ss (addSegment mc q acc r)) := by
      intro ws
      have hb := hd seg ws
      revert hb
      rcases det seg ws with er | r <;> rcases det' seg ws with er' | r' <;> intro hb
      · rw [show er = er' from hb]; rfl
      · exact hb.elim
      · exact hb.elim
      · simp only [R.ok_bind]
        rw [hb.1]
        rcases keyClarity r'.all with e | q
        · rfl
        · simp only [R.ok_bind]
          rw [ih]
          unfold addSegment
          rw [hb.1]
    rcases w with _ | ws
    · exact key none
    · simp only
      rcases slice ws s (s + len) with e | v
      · rfl
      · exact key (some v)

theorem accSegments_alike {det det' : List (List F32) → Option (List F32) → R Res} (hd : ∀ c w, Alike (det c w) (det' c w))
    (cs : List (List F32)) (w : Option (List F32)) (mc sw : F32) (len : ℕ) : ∀ (ss : List ℕ) (acc : Acc),
    accSegments det cs w mc sw len ss acc = accSegments det' cs w mc sw len ss acc := by
  intro ss
  induction ss with
  | nil => intro acc; rfl
  | cons s ss ih =>
    intro acc
    unfold accSegments
    have hb := hd ((cs.drop s).take len) (segWeights w s len)
    revert hb
    rcases det ((cs.drop s).take len) (segWeights w s len) with er | r <;>
      rcases det' ((cs.drop s).take len) (segWeights w s len) with er' | r' <;> intro hb
    · rw [show er = er' from hb]; rfl
    · exact hb.elim
    · exact hb.elim
    · simp only [R.ok_bind]
      have : accSegment mc sw acc r = accSegment mc sw acc r' := by unfold accSegment; rw [hb.1]
      rw [this]
      rcases accSegment mc sw acc r' with e | a
      · rfl
      · exact ih a

theorem accScales_alike {det det' : List (List F32) → Option (List F32) → R Res} (hd : ∀ c w, Alike (det c w) (det' c w))
    (cs : List (List F32)) (w : Option (List F32)) (mc : F32) (hop : ℕ) (sw : Option (List F32)) : ∀ (lens : List ℕ) (i : ℕ) (acc : Acc),
    accScales det cs w mc hop sw i lens acc = accScales det' cs w mc hop sw i lens acc := by
  intro lens
  induction lens with
  | nil => intro i acc; rfl
  | cons len lens ih =>
    intro i acc
    unfold accScales
    dsimp only
    rw [accSegments_alike hd]
    split_ifs
    · exact ih _ _
    · congr 1
      funext a
      exact ih _ _

theorem detectMultiScale_alike {ord ord' : HashOrder} (h : ∀ l, (ord l).Perm l) (h' : ∀ l, (ord' l).Perm l)
    (cs : List (List F32)) (T : Templates) (w : Option (List F32)) (lens : List ℕ) (hop : ℕ) (mc : F32)
    (sw : Option (List F32)) (m : Bool) (tm fl : F32) (bonus : Bool) (bw : F32) :
    Alike (detectMultiScale ord cs T w lens hop mc sw m tm fl bonus bw)
      (detectMultiScale ord' cs T w lens hop mc sw m tm fl bonus bw) := by
  unfold detectMultiScale
  have hd : ∀ c w, Alike (detectWith ord c T w m tm fl bonus bw) (detectWith ord' c T w m tm fl bonus bw) :=
    fun c w => detectWith_alike h h' _ _ _ _ _ _ _ _
  split_ifs
  · exact Alike.refl _
  · exact Alike.refl _
  · dsimp only
    rw [accScales_alike hd]
    rcases accScales (fun c w => detectWith ord' c T w m tm fl bonus bw) cs w mc hop sw 0 lens
      ⟨allKeys.map (fun k => (k, 0)), 0, 0⟩ with e | acc
    · exact rfl
    · simp only [R.ok_bind]
      split_ifs
      · exact hd _ _
      · exact Alike.refl _

theorem detectEnsemble_same {o1 o1' o2 o2' : HashOrder} (h1 : ∀ l, (o1 l).Perm l) (h1' : ∀ l, (o1' l).Perm l)
    (h2 : ∀ l, (o2 l).Perm l) (h2' : ∀ l, (o2' l).Perm l) (cs : List (List F32)) (w : Option (List F32)) (a b : F32) :
    detectEnsemble o1 o2 cs w a b = detectEnsemble o1' o2' cs w a b := by
  unfold detectEnsemble
  dsimp only
  have hA := detectKey_alike h1 h1' cs krumhanslKessler w
  have hB := detectKey_alike h2 h2' cs temperley w
  revert hA
  rcases detectKey o1 cs krumhanslKessler w with er | r <;> rcases detectKey o1' cs krumhanslKessler w with er' | r' <;> intro hA
  · rw [show er = er' from hA]; rfl
  · exact hA.elim
  · exact hA.elim
  simp only [R.ok_bind]
  revert hB
  rcases detectKey o2 cs temperley w with es | s <;> rcases detectKey o2' cs temperley w with es' | s' <;> intro hB
  · rw [show es = es' from hB]; simp only [R.error_bind]
  · exact hB.elim
  · exact hB.elim
  simp only [R.ok_bind]
  rw [hA.1, hB.1]

/-- specification: two libraries that differ only in the iteration orders of hash maps, each of which visits every entry once -/
structure OnlySeeds (L L' : Lib) : Prop where
  same : L' = { L with ord := L'.ord, ord2 := L'.ord2 }
  ord : ∀ l, (L.ord l).Perm l
  ord' : ∀ l, (L'.ord l).Perm l
  ord2 : ∀ l, (L.ord2 l).Perm l
  ord2' : ∀ l, (L'.ord2 l).Perm l

theorem detect_alike {L L' : Lib} (h : OnlySeeds L L') (c : Config) (cs : List (List F32)) (w : Option (List F32)) :
    Alike (detect L c cs w) (detect L' c cs w) :=
  detectWith_alike h.ord h.ord' _ _ _ _ _ _ _ _

theorem segVote_alike {L L' : Lib} (h : OnlySeeds L L') (c : Config) (cs : List (List F32)) (w : Option (List F32)) :
    Alike (segVote L c cs w) (segVote L' c cs w) := by
  unfold segVote
  dsimp only
  rw [segLoop_alike (det := detect L c) (det' := detect L' c) (fun cs w => detect_alike h c cs w)]
  generalize segLoop (detect L' c) cs w (F32.clamp c.segClarity 0 1) (Nat.min c.segLen cs.length) _ _ = x
  rcases x with e | acc
  · exact rfl
  · simp only [R.ok_bind]
    split_ifs
    · exact detect_alike h c cs w
    · exact Alike.refl _

/-- both branches fail alike, both detect nothing, or both detect something alike -/
def AlikeO : R (Option Res) → R (Option Res) → Prop
  | .ok (some r), .ok (some r') => Alike (.ok r) (.ok r')
  | .ok none, .ok none => True
  | .error e, .error e' => e = e'
  | _, _ => False

theorem attempt_alike {a b : R Res} (h : Alike a b) : AlikeO (attempt a) (attempt b) := by
  rcases a with e | r <;> rcases b with e' | r'
  · rw [show e = e' from h]
    unfold attempt
    cases e' <;> simp [AlikeO]
  · exact h.elim
  · exact h.elim
  · exact h

theorem keyCall_alike {L L' : Lib} (h : OnlySeeds L L') (c : Config) (cs : List (List F32)) (w : Option (List F32)) :
    AlikeO (keyCall L c cs w) (keyCall L' c cs w) := by
  unfold keyCall
  by_cases h1 : c.enableEnsemble = true
  · rw [if_pos h1, if_pos h1, detectEnsemble_same h.ord h.ord' h.ord2 h.ord2']
    exact attempt_alike (Alike.refl _)
  rw [if_neg h1, if_neg h1]
  by_cases h2 : multiScaleOn c cs.length = true
  · rw [if_pos h2, if_pos h2]
    exact attempt_alike (detectMultiScale_alike h.ord h.ord' _ _ _ _ _ _ _ _ _ _ _ _)
  rw [if_neg h2, if_neg h2]
  by_cases h3 : segOn c cs.length = true
  · rw [if_pos h3, if_pos h3]
    have := segVote_alike h c cs w
    revert this
    rcases segVote L c cs w with e | r <;> rcases segVote L' c cs w with e' | r' <;> intro this
    · exact this
    · exact this.elim
    · exact this.elim
    · exact this
  · rw [if_neg h3, if_neg h3]
    exact attempt_alike (detect_alike h c cs w)

/-- same error, or same key confidence and key clarity -/
def AlikeK : R (Key × F32 × F32) → R (Key × F32 × F32) → Prop
  | .ok k, .ok k' => k.2 = k'.2
  | .error e, .error e' => e = e'
  | _, _ => False

theorem keyOf_alike {L L' : Lib} (h : OnlySeeds L L') (c : Config) (cs : List (List F32)) (es : List F32) :
    AlikeK (keyOf L c cs es) (keyOf L' c cs es) := by
  unfold keyOf
  have hp : postChroma L' c cs = postChroma L c cs := by rw [h.same]; rfl
  have hM : L'.M = L.M := by rw [h.same]
  rw [hp, hM]
  rcases postChroma L c cs with e | cs1
  · exact rfl
  simp only [R.ok_bind]
  rcases edgeTrim c cs1 es with e | x
  · exact rfl
  simp only [R.ok_bind]
  have := keyCall_alike h c x.1 (frameWeights L.M c x.1 x.2)
  revert this
  rcases keyCall L c x.1 (frameWeights L.M c x.1 x.2) with e | o <;>
    rcases keyCall L' c x.1 (frameWeights L.M c x.1 x.2) with e' | o' <;> intro this
  · exact this
  · rcases o' with _ | _ <;> exact this.elim
  · rcases o with _ | _ <;> exact this.elim
  · rcases o with _ | r <;> rcases o' with _ | r'
    · exact rfl
    · exact this.elim
    · exact this.elim
    · simp only [R.ok_bind]
      rw [this.1]
      rcases keyClarity r'.all with e | q
      · exact rfl
      · show (r.conf, q) = (r'.conf, q)
        rw [this.2.2]

theorem keyPart_alike {L L' : Lib} (h : OnlySeeds L L') (c : Config) (x : List F32) (spec : List (List F32)) (sr : ℕ)
    (bts : List F32) : AlikeK (keyPart L c x spec sr bts) (keyPart L' c x spec sr bts) := by
  unfold keyPart
  split_ifs
  swap
  · exact rfl
  have e1 : keySpec L' c x spec = keySpec L c x spec := by rw [h.same]; rfl
  rw [e1]
  rcases keySpec L c x spec with e | ks0
  · exact rfl
  simp only [R.ok_bind]
  have e2 : specForKey L' c sr ks0 = specForKey L c sr ks0 := by rw [h.same]; rfl
  rw [e2]
  rcases specForKey L c sr ks0 with e | ks
  · exact rfl
  simp only [R.ok_bind]
  have e3 : logFreq L' c sr ks = logFreq L c sr ks := by rw [h.same]; rfl
  rw [e3]
  rcases logFreq L c sr ks with e | lg
  · exact rfl
  simp only [R.ok_bind]
  have e4 : tuningOffset L' c sr ks lg.isSome = tuningOffset L c sr ks lg.isSome := by rw [h.same]; rfl
  rw [e4]
  rcases tuningOffset L c sr ks lg.isSome with e | t
  · exact rfl
  simp only [R.ok_bind]
  have e5 : chromaCall L' c sr ks lg t bts = chromaCall L c sr ks lg t bts := by rw [h.same]; rfl
  rw [e5]
  rcases attempt (chromaCall L c sr ks lg t bts) with e | o
  · exact rfl
  simp only [R.ok_bind]
  rcases o with _ | ⟨cs, es⟩
  · exact rfl
  · exact keyOf_alike h c cs es

/-- **C96, only the key name can differ** (partial).  Two analyses of the same audio with the same settings, whose hash
maps are seeded differently, either fail with the same error or succeed with results that agree in every field, the
warnings, the confidences and the beat grid included, except possibly the name of the key.  Missing: the key itself, see
`C96_same` and `C96_violated`. -/
theorem C96_all_but_key_partial (L L' : Lib) (h : OnlySeeds L L') (c : Config) (audio : List F32) (sr : ℕ) :
    (∃ e, analyze L c audio sr = .error e ∧ analyze L' c audio sr = .error e) ∨
    (∃ r r', analyze L c audio sr = .ok r ∧ analyze L' c audio sr = .ok r' ∧ r' = { r with key := r'.key }) := by
  unfold analyze
  split_ifs
  · exact Or.inl ⟨_, rfl, rfl⟩
  · exact Or.inl ⟨_, rfl, rfl⟩
  have e1 : normalized L' c audio sr = normalized L c audio sr := by rw [h.same]; rfl
  rw [e1]
  rcases normalized L c audio sr with e | y
  · exact Or.inl ⟨e, rfl, rfl⟩
  simp only [R.ok_bind]
  have e2 : trimmed L' c y sr = trimmed L c y sr := by rw [h.same]; rfl
  rw [e2]
  rcases trimmed L c y sr with e | x
  · exact Or.inl ⟨e, rfl, rfl⟩
  simp only [R.ok_bind]
  split_ifs
  · exact Or.inl ⟨_, rfl, rfl⟩
  unfold analyzeTrimmed
  have hM : L'.M = L.M := by rw [h.same]
  have hS : L'.sfft = L.sfft := by rw [h.same]
  rw [hM, hS]
  rcases Onset.energyFluxOnsets L.M x c.frame c.hop (-20) with e | energy
  · exact Or.inl ⟨e, rfl, rfl⟩
  simp only [R.ok_bind]
  rcases Chroma.computeStft L.M L.sfft x c.frame c.hop with e | spec
  · exact Or.inl ⟨e, rfl, rfl⟩
  simp only [R.ok_bind]
  rcases onsets c energy spec x.length sr with e | ons
  · exact Or.inl ⟨e, rfl, rfl⟩
  simp only [R.ok_bind]
  have e3 : legacy L' c ons sr = legacy L c ons sr := by rw [h.same]; rfl
  rw [e3]
  rcases legacy L c ons sr with e | leg
  · exact Or.inl ⟨e, rfl, rfl⟩
  simp only [R.ok_bind]
  have e4 : tempo L' c x spec sr = tempo L c x spec sr := by rw [h.same]; rfl
  rw [e4]
  rcases tempo L c x spec sr with e | t
  · exact Or.inl ⟨e, rfl, rfl⟩
  simp only [R.ok_bind]
  generalize Pipeline.selectBpm c.forceLegacy c.enableFusion t.est leg = bpm
  have e5 : beats L' bpm.1 bpm.2 ons sr = beats L bpm.1 bpm.2 ons sr := by rw [h.same]; rfl
  rw [e5]
  rcases beats L bpm.1 bpm.2 ons sr with e | g
  · exact Or.inl ⟨e, rfl, rfl⟩
  simp only [R.ok_bind]
  have hk := keyPart_alike h c x spec sr g.1.beats
  revert hk
  rcases keyPart L c x spec sr g.1.beats with e | k <;> rcases keyPart L' c x spec sr g.1.beats with e' | k' <;> intro hk
  · exact Or.inl ⟨e, rfl, by rw [show e = e' from hk]; rfl⟩
  · exact hk.elim
  · exact hk.elim
  · refine Or.inr ⟨_, _, rfl, rfl, ?_⟩
    have hf : L'.fmt = L.fmt := by rw [h.same]
    have hk' : k.2 = k'.2 := hk
    unfold report
    rw [hf, hk']

/-! ### When the key cannot differ either -/

theorem detectWith_same {ord ord' : HashOrder} (h : ∀ l, (ord l).Perm l) (h' : ∀ l, (ord' l).Perm l)
    (cs : List (List F32)) (T : Templates) (m : Bool) (tm fl : F32) (bonus : Bool) (bw : F32)
    (hon : bonus = true ∨ m = true ∧ 0 < F32.clamp fl 0 1) :
    detectWith ord cs T none m tm fl bonus bw = detectWith ord' cs T none m tm fl bonus bw := by
  unfold detectWith
  have hc : (m || bonus) = true := by
    rcases hon with a | a
    · rw [a, Bool.or_true]
    · rw [a.1, Bool.true_or]
  rw [if_pos hc, if_pos hc]
  by_cases hcs : cs = []
  · subst hcs; rfl
  refine detectKeyMode_same h h' _ _ _ _ _ _ _ ?_ ?_
  · rcases hon with a | a
    · exact Or.inl a
    · rw [if_pos a.1]; exact Or.inr a.2
  · intro hle
    have h1 : (1 : F32) ≤ F32.ofNat cs.length := one_le_ofNat (List.length_pos_of_ne_nil hcs)
    exact absurd (F32.le_trans h1 hle) (by decide +kernel)

theorem keyCall_same {L L' : Lib} (h : OnlySeeds L L') (c : Config) (cs : List (List F32)) (w : Option (List F32))
    (hc : c.enableEnsemble = true ∨
      w = none ∧ (c.enableMinorBonus = true ∨ c.enableMode = true ∧ 0 < F32.clamp c.flipMin 0 1)) :
    keyCall L c cs w = keyCall L' c cs w := by
  unfold keyCall
  by_cases h1 : c.enableEnsemble = true
  · rw [if_pos h1, if_pos h1, detectEnsemble_same h.ord h.ord' h.ord2 h.ord2']
  rw [if_neg h1, if_neg h1]
  obtain ⟨rfl, hon⟩ := hc.resolve_left h1
  have hd : ∀ cs, detect L c cs none = detect L' c cs none := fun cs => detectWith_same h.ord h.ord' _ _ _ _ _ _ _ hon
  by_cases h2 : multiScaleOn c cs.length = true
  · rw [if_pos h2, if_pos h2]
    congr 1
    generalize hf : (if c.enableMode = true then c.flipMin else 0) = fl
    generalize (if c.multiScaleWeights = [] then none else some c.multiScaleWeights) = sw
    unfold detectMultiScale
    split_ifs
    · rfl
    · rfl
    dsimp only
    rw [accScales_alike (det := fun c' w => detectWith L.ord c' (templates c) w c.enableMode c.thirdMargin fl c.enableMinorBonus c.minorBonusWeight)
      (det' := fun c' w => detectWith L'.ord c' (templates c) w c.enableMode c.thirdMargin fl c.enableMinorBonus c.minorBonusWeight)
      (fun c' w => detectWith_alike h.ord h.ord' _ _ _ _ _ _ _ _)]
    congr 1
    funext acc
    split_ifs
    · refine detectWith_same h.ord h.ord' _ _ _ _ _ _ _ ?_
      rcases hon with a | a
      · exact Or.inl a
      · rw [← hf, if_pos a.1]; exact Or.inr a
    · rfl
  rw [if_neg h2, if_neg h2]
  by_cases h3 : segOn c cs.length = true
  · rw [if_pos h3, if_pos h3]
    have : segVote L c cs none = segVote L' c cs none := by
      unfold segVote
      dsimp only
      rw [segLoop_alike (det := detect L c) (det' := detect L' c) (fun cs w => detect_alike h c cs w)]
      congr 1
      funext acc
      split_ifs
      · exact hd cs
      · rfl
    rw [this]
  · rw [if_neg h3, if_neg h3, hd]

/-- **C96, the same answer.** With the two-template ensemble, or with the mode heuristic (or the harmonic-minor bonus)
and unweighted frames, two analyses of the same audio with the same settings give the same result in every field, or the
same error, whatever the seeds of the hash maps. -/
theorem C96_same (L L' : Lib) (h : OnlySeeds L L') (c : Config)
    (hc : c.enableEnsemble = true ∨ c.enableFrameWeighting = false ∧
      (c.enableMinorBonus = true ∨ c.enableMode = true ∧ 0 < c.flipMin))
    (audio : List F32) (sr : ℕ) : analyze L c audio sr = analyze L' c audio sr := by
  have hK : ∀ cs es, keyOf L c cs es = keyOf L' c cs es := by
    intro cs es
    unfold keyOf
    have hp : postChroma L' c cs = postChroma L c cs := by rw [h.same]; rfl
    have hM : L'.M = L.M := by rw [h.same]
    rw [hp, hM]
    rcases postChroma L c cs with e | cs1
    · rfl
    simp only [R.ok_bind]
    rcases edgeTrim c cs1 es with e | x
    · rfl
    simp only [R.ok_bind]
    rw [keyCall_same h]
    rcases hc with a | ⟨a, b⟩
    · exact Or.inl a
    · refine Or.inr ⟨by unfold frameWeights; rw [a]; rfl, ?_⟩
      rcases b with b | ⟨b, b'⟩
      · exact Or.inl b
      · refine Or.inr ⟨b, ?_⟩
        unfold F32.clamp
        dsimp only
        have n1 : ¬ c.flipMin < 0 := fun hh => not_le_of_lt hh (F32.le_of_lt b')
        rw [if_neg n1]
        split_ifs
        · decide +kernel
        · exact b'
  have hP : ∀ x spec bts, keyPart L c x spec sr bts = keyPart L' c x spec sr bts := by
    intro x spec bts
    unfold keyPart
    have e1 : keySpec L' c x spec = keySpec L c x spec := by rw [h.same]; rfl
    have e2 : specForKey L' c sr = specForKey L c sr := by rw [h.same]; rfl
    have e3 : logFreq L' c sr = logFreq L c sr := by rw [h.same]; rfl
    have e4 : tuningOffset L' c sr = tuningOffset L c sr := by rw [h.same]; rfl
    have e5 : chromaCall L' c sr = chromaCall L c sr := by rw [h.same]; rfl
    rw [e1, e2, e3, e4, e5]
    simp only [hK]
  rcases C96_all_but_key_partial L L' h c audio sr with ⟨e, a, b⟩ | ⟨r, r', a, b, -⟩
  · rw [a, b]
  · have hT : ∀ x, analyzeTrimmed L c x sr = analyzeTrimmed L' c x sr := by
      intro x
      unfold analyzeTrimmed
      have e1 : L'.M = L.M := by rw [h.same]
      have e2 : L'.sfft = L.sfft := by rw [h.same]
      have e3 : legacy L' c = legacy L c := by rw [h.same]; rfl
      have e4 : tempo L' c x = tempo L c x := by rw [h.same]; rfl
      have e5 : beats L' = beats L := by rw [h.same]; rfl
      have e6 : report L' = report L := by rw [h.same]; rfl
      rw [e1, e2, e3, e4, e5, e6]
      simp only [hP]
    unfold analyze
    have e1 : normalized L' c = normalized L c := by rw [h.same]; rfl
    have e2 : trimmed L' c = trimmed L c := by rw [h.same]; rfl
    rw [e1, e2]
    simp only [hT]

/-! ### The hypotheses can be met, and the key does differ -/

/-- cos (2 pi k / 8) -/
def cos8 (k : ℕ) : F32 := [(1 : F32), 0.70710678, 0, -0.70710678, -1, -0.70710678, 0, 0.70710678].getD (k % 8) 0

/-- the discrete Fourier transform of eight points -/
def dft8 (x : List F32) : List (F32 × F32) := (List.range 8).map (fun k =>
  (F32.sum ((List.range 8).map (fun n => x.getD n 0 * cos8 (k * n))),
    F32.sum ((List.range 8).map (fun n => x.getD n 0 * cos8 (k * n + 2)))))

/-- the binary logarithm of the harmonics of 440 Hz relative to 440 Hz -/
def stepLog (x : F32) : F32 :=
  if x < 0.75 then -1 else if x < 1.25 then 0 else if x < 1.75 then 0.5849625 else if x < 2.5 then 1
  else if x < 3.5 then 1.5849625 else if x < 4.5 then 2 else 2.5

def stepExp (x : F32) : F32 := if x < -4 then 0.01 else if x < -2 then 0.13 else if x < -0.4 then 0.4 else 0.9

def seedLibm : Libm := { Libm.demo with
  powf := fun x p => if p < -1 then 0.01 else if p < 0 then 0.9 else F32.clamp x 0 1
  cos := fun _ => 0
  exp := stepExp
  log2 := stepLog }

def seedLib (o : HashOrder) : Lib :=
  ⟨seedLibm, dft8, fun _ _ => (0, 0), fun _ _ => 0, halfPow, topSel, o, o, fun _ => [], 1000⟩

/-- pseudo-random samples between -0.9 and 0.9 -/
def noise (seed : ℕ) : ℕ → List F32
  | 0 => []
  | n + 1 =>
    let s := (seed * 1103515245 + 12345) % 2147483648
    (F32.ofNat (s / 65536 % 19) - 9) / 10 :: noise s n

theorem seeds_differ : OnlySeeds (seedLib id) (seedLib List.reverse) :=
  ⟨rfl, fun _ => List.Perm.refl _, List.reverse_perm, fun _ => List.Perm.refl _, List.reverse_perm⟩

/-- **C96 violated.** The same audio is reported in A minor or in E major, depending on the seed of a hash map. -/
theorem C96_violated : ∃ (L L' : Lib) (c : Config) (audio : List F32) (r r' : Result), OnlySeeds L L' ∧
    analyze L c audio 3520 = .ok r ∧ analyze L' c audio 3520 = .ok r' ∧ r.key = .minor 9 ∧ r'.key = .major 4 := by
  have h : ∀ b : Bool, (match analyze (seedLib (if b then id else List.reverse))
      { frame := 8, hop := 4, enableKeyStft := false, forceLegacy := true } (noise 8 12) 3520 with
      | .ok r => decide (r.key = if b then .minor 9 else .major 4) | _ => false) = true := by
    intro b; cases b <;> decide +kernel
  have h1 := h true
  have h2 := h false
  rw [if_pos rfl] at h1
  rw [if_neg (by decide)] at h2
  rcases e1 : analyze (seedLib id) { frame := 8, hop := 4, enableKeyStft := false, forceLegacy := true } (noise 8 12) 3520 with x | r
  · rw [e1] at h1; cases h1
  rcases e2 : analyze (seedLib List.reverse) { frame := 8, hop := 4, enableKeyStft := false, forceLegacy := true } (noise 8 12) 3520 with x | r'
  · rw [e2] at h2; cases h2
  rw [e1] at h1
  rw [e2] at h2
  exact ⟨_, _, _, _, r, r', seeds_differ, e1, e2, of_decide_eq_true h1, of_decide_eq_true h2⟩

/-- beside `C96_same`: two seeds, and settings that meet the hypothesis -/
example : OnlySeeds (seedLib id) (seedLib List.reverse) ∧
    (∀ c : Config, c = { enableFrameWeighting := false, enableMode := true } → c.enableEnsemble = true ∨ c.enableFrameWeighting = false ∧
      (c.enableMinorBonus = true ∨ c.enableMode = true ∧ 0 < c.flipMin)) := by
  refine ⟨seeds_differ, ?_⟩
  rintro c rfl
  exact Or.inr ⟨rfl, Or.inr ⟨rfl, by decide +kernel⟩⟩

end Verif.Props
