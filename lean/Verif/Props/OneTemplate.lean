/-
Property theorems C148: an ensemble with all its weight on one template set (src/features/key/detector.rs).
-/
import Verif.Props.KeyVariants

namespace Verif.Props
open Verif Verif.Keys Verif.KeyDet F32

theorem shares {w : F32} (hw : 1e-9 < w) (w1 : w ≤ rnd (pow2 60)) :
    w + 0 = w ∧ 0 + w = w ∧ w / w = 1 ∧ (0 : F32) / w = 0 := by
  have hp : 0 ≤ w := F32.le_of_lt (F32.lt_trans (by decide +kernel) hw)
  have hp' : 0 < w := F32.lt_trans (by decide +kernel) hw
  obtain ⟨q, hq, rfl⟩ := isFinite_iff.1 (isFinite_of_between (lo := 0) (hi := rnd (pow2 60)) (by decide +kernel) (by decide +kernel) hp w1)
  rw [zero_def, fin_lt_fin] at hp'
  rw [zero_def, one_def, add_fin, add_fin, div_fin hp'.ne', div_fin hp'.ne', add_zero, zero_add, _root_.div_self hp'.ne', zero_div]
  exact ⟨rnd_val hq, rnd_val hq, rnd_val grid_one, rnd_val grid_zero⟩

theorem keep_one {x y : F32} (hx : x.isFinite = true) (hy : y.isFinite = true) : 1 * x + 0 * y = x ∧ 0 * y + 1 * x = x := by
  obtain ⟨a, ha, rfl⟩ := isFinite_iff.1 hx
  obtain ⟨b, hb, rfl⟩ := isFinite_iff.1 hy
  rw [one_def, zero_def, mul_fin, mul_fin, one_mul, zero_mul, rnd_val ha, rnd_val grid_zero, add_fin, add_fin, add_zero, zero_add]
  exact ⟨rnd_val ha, rnd_val ha⟩

/-- looking up every key of a complete list gives the list again -/
theorem lookup_perm {l : List (Key × F32)} (h : (l.map Prod.fst).Perm allKeys) :
    (allKeys.map (fun k => (k, lookupLast l k))).Perm l := by
  have hnd : (l.map Prod.fst).Nodup := h.nodup_iff.2 allKeys_nodup
  rw [List.perm_ext_iff_of_nodup (List.Nodup.map (fun a b e => (Prod.mk.inj e).1) allKeys_nodup) (List.Nodup.of_map _ hnd)]
  intro p
  have hin : ∀ k, k ∈ allKeys → (k, lookupLast l k) ∈ l := fun k hk => modeScore_mem (h.mem_iff.2 hk)
  constructor
  · intro hp
    obtain ⟨k, hk, rfl⟩ := List.mem_map.1 hp
    exact hin k hk
  · intro hp
    have hk : p.1 ∈ allKeys := h.mem_iff.1 (List.mem_map_of_mem hp)
    have := List.inj_on_of_nodup_map hnd (hin p.1 hk) hp rfl
    rw [← this]
    exact List.mem_map.2 ⟨p.1, hk, rfl⟩

/-- the parts of a result sorted from the scores of another -/
theorem resort {ord : List (Key × F32) → List (Key × F32)} (hord : ∀ l, (ord l).Perm l) {chroma : List (List F32)}
    {T : Templates} {weights : Option (List F32)} {r : Res} (h : detectKey ord chroma T weights = .ok r)
    (hf : ∀ p ∈ r.all, p.2.isFinite = true) {l : List (Key × F32)} (hl : l.Perm r.all) (hs : l.Pairwise (fun a b => b.2 ≤ a.2)) :
    margin (l.getD 0 (.major 0, 0)).2 (l.getD 1 (.major 0, 0)).2 = r.conf ∧
    ∃ s, ((l.getD 0 (.major 0, 0)).1, s) ∈ r.all ∧ ∀ p ∈ r.all, p.2 ≤ s := by
  obtain ⟨s, o, -, m1, m2, ⟨k, hk, mk⟩, mo, ec⟩ := detect_spec hord h
  have hperm := (detectKey_all h).1
  have hnd : (l.map Prod.fst).Nodup := (hl.map Prod.fst).nodup_iff.2 (hperm.nodup_iff.2 allKeys_nodup)
  have hlen : l.length = 24 := by
    have := ((hl.map Prod.fst).trans hperm).length_eq; rw [List.length_map] at this; exact this.trans (by decide +kernel)
  have hmem := fun p => (hl.mem_iff (a := p))
  match l, hlen with
  | b :: c :: l, _ =>
    obtain ⟨hb, hs'⟩ := List.pairwise_cons.1 hs
    obtain ⟨hc, -⟩ := List.pairwise_cons.1 hs'
    have bmem := (hmem b).1 (by simp)
    have cmem := (hmem c).1 (by simp)
    have hcb := hb c (by simp)
    have hbc : b.1 ≠ c.1 := by
      simp only [List.map_cons, List.nodup_cons, List.mem_cons, not_or] at hnd
      exact hnd.1.1
    have le_c : ∀ p ∈ c :: l, p.2 ≤ c.2 := by
      intro p hp
      rcases List.mem_cons.1 hp with rfl | hp
      · exact F32.le_refl (ne_nan_of_isFinite (hf _ cmem))
      · exact hc p hp
    have le_b : ∀ p ∈ r.all, p.2 ≤ b.2 := by
      intro p hp
      rcases List.mem_cons.1 ((hmem p).2 hp) with rfl | hp
      · exact F32.le_refl (ne_nan_of_isFinite (hf _ bmem))
      · exact hb p hp
    have eb : b.2 = s := F32.le_antisymm (m2 b bmem) (le_b _ m1)
    have ecs : c.2 = o := by
      apply F32.le_antisymm
      · by_cases hck : c.1 = r.key
        · exact F32.le_trans hcb (mo b bmem (fun e => hbc (e.trans hck.symm)))
        · exact mo c cmem hck
      · rcases List.mem_cons.1 ((hmem _).2 mk) with e | hm
        · have hkb : b.1 ≠ r.key := by rw [← e]; exact hk
          rcases List.mem_cons.1 ((hmem _).2 m1) with e' | hm'
          · exact absurd (by rw [← e']) hkb
          · exact F32.le_trans (m2 _ mk) (le_c _ hm')
        · exact le_c _ hm
    refine ⟨?_, b.2, bmem, le_b⟩
    change margin b.2 c.2 = r.conf
    rw [eb, ecs, ec]

/-- **C148 (partial)**: an ensemble with all the weight on the Krumhansl-Kessler templates gives every key the score it has with these templates
alone, the same confidence, and reports a key with the best of these scores; and likewise for the Temperley templates.
Missing: that it is the same key when several share the best score (`C148_violated`). -/
theorem C148_single_partial (ord1 ord2 : List (Key × F32) → List (Key × F32)) (h1 : ∀ l, (ord1 l).Perm l) (h2 : ∀ l, (ord2 l).Perm l)
    (chroma : List (List F32)) (weights : Option (List F32)) (hc : ChromaInput chroma weights) (w : F32) (hw : 1e-9 < w)
    (w1 : w ≤ rnd (pow2 60)) (kk te : Res) (hkk : detectKey ord1 chroma krumhanslKessler weights = .ok kk)
    (hte : detectKey ord2 chroma temperley weights = .ok te) :
    (∃ r, detectEnsemble ord1 ord2 chroma weights w 0 = .ok r ∧ r.all.Perm kk.all ∧ r.all.Pairwise (fun a b => b.2 ≤ a.2) ∧
      r.conf = kk.conf ∧ ∃ s, (r.key, s) ∈ kk.all ∧ ∀ p ∈ kk.all, p.2 ≤ s) ∧
    ∃ r, detectEnsemble ord1 ord2 chroma weights 0 w = .ok r ∧ r.all.Perm te.all ∧ r.all.Pairwise (fun a b => b.2 ≤ a.2) ∧
      r.conf = te.conf ∧ ∃ s, (r.key, s) ∈ te.all ∧ ∀ p ∈ te.all, p.2 ≤ s := by
  obtain ⟨s1, s2, s3, s4⟩ := shares hw w1
  have f1 : ∀ p ∈ kk.all, p.2.isFinite = true := fun p hp =>
    isFinite_of_between (by decide +kernel) (by decide +kernel) (detect_range hc unitTemplates_builtin.1 hkk hp).1
      (detect_range hc unitTemplates_builtin.1 hkk hp).2
  have f2 : ∀ p ∈ te.all, p.2.isFinite = true := fun p hp =>
    isFinite_of_between (by decide +kernel) (by decide +kernel) (detect_range hc unitTemplates_builtin.2 hte hp).1
      (detect_range hc unitTemplates_builtin.2 hte hp).2
  have p1 := (detectKey_all hkk).1
  have p2 := (detectKey_all hte).1
  have g1 : ∀ k ∈ allKeys, (lookupLast kk.all k).isFinite = true := fun k hk => f1 _ (modeScore_mem (p1.mem_iff.2 hk))
  have g2 : ∀ k ∈ allKeys, (lookupLast te.all k).isFinite = true := fun k hk => f2 _ (modeScore_mem (p2.mem_iff.2 hk))
  constructor
  · unfold detectEnsemble
    dsimp only
    rw [hkk, hte, s1, if_pos hw, if_pos hw, s3, s4]
    have e : allKeys.map (fun k => (k, 1 * lookupLast kk.all k + 0 * lookupLast te.all k)) = allKeys.map (fun k => (k, lookupLast kk.all k)) :=
      List.map_congr_left (fun k hk => by rw [(keep_one (g1 k hk) (g2 k hk)).1])
    have hp := (sortDesc_perm (key := Prod.snd) (allKeys.map (fun k => (k, lookupLast kk.all k)))).trans (lookup_perm p1)
    have hs : (sortDesc Prod.snd (allKeys.map (fun k => (k, lookupLast kk.all k)))).Pairwise (fun a b => b.2 ≤ a.2) :=
      sortDesc_pairwise (fun a ha => ne_nan_of_isFinite (f1 a ((lookup_perm p1).mem_iff.1 ha)))
    obtain ⟨r1, r2⟩ := resort h1 hkk f1 hp hs
    refine ⟨_, rfl, ?_⟩
    dsimp only
    rw [e]
    exact ⟨hp, hs, r1, r2⟩
  · unfold detectEnsemble
    dsimp only
    rw [hkk, hte, s2, if_pos hw, if_pos hw, s3, s4]
    have e : allKeys.map (fun k => (k, 0 * lookupLast kk.all k + 1 * lookupLast te.all k)) = allKeys.map (fun k => (k, lookupLast te.all k)) :=
      List.map_congr_left (fun k hk => by rw [(keep_one (g2 k hk) (g1 k hk)).2])
    have hp := (sortDesc_perm (key := Prod.snd) (allKeys.map (fun k => (k, lookupLast te.all k)))).trans (lookup_perm p2)
    have hs : (sortDesc Prod.snd (allKeys.map (fun k => (k, lookupLast te.all k)))).Pairwise (fun a b => b.2 ≤ a.2) :=
      sortDesc_pairwise (fun a ha => ne_nan_of_isFinite (f2 a ((lookup_perm p2).mem_iff.1 ha)))
    obtain ⟨r1, r2⟩ := resort h2 hte f2 hp hs
    refine ⟨_, rfl, ?_⟩
    dsimp only
    rw [e]
    exact ⟨hp, hs, r1, r2⟩

/-- non-vacuity: the notes of a C major chord, with all the weight on one side -/
example : (1e-9 : F32) < 0.5 ∧ (0.5 : F32) ≤ rnd (pow2 60) ∧
    (match detectKey id [[1, 0, 0, 0, 1, 0, 0, 1, 0, 0, 0, 0]] krumhanslKessler none,
        detectEnsemble id id [[1, 0, 0, 0, 1, 0, 0, 1, 0, 0, 0, 0]] none 0.5 0 with
      | .ok a, .ok b => decide (a.key = .major 0) && decide (b.key = .major 0) | _, _ => false) = true := by decide +kernel

/-- **C148 violated**: for the profile of C major, where two keys share the best score, the templates alone report A minor (for one order
of the hash map) and the ensemble with all its weight on them reports C major. -/
theorem C148_violated :
    (match detectKey id [krumhanslKessler.getMajor 0] krumhanslKessler none,
        detectEnsemble id id [krumhanslKessler.getMajor 0] none 1 0 with
      | .ok a, .ok b => decide (a.key = .minor 9) && decide (b.key = .major 0) | _, _ => false) = true := by decide +kernel

end Verif.Props
