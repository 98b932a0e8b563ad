/-
Property theorems C123: a wider tolerance merges more onsets, never fewer (src/features/onset/consensus.rs).
-/
import Verif.Props.Consensus
import Verif.Props.TrimMore
import Verif.Props.ConfidenceMono
import Mathlib.Data.List.Perm.Subperm

namespace Verif.Props
open Verif Verif.Consensus Verif.F32

/-- Two groups that share a detection position are the same group. -/
theorem Grouping.same {tol : ℕ} {dets : List (ℕ × ℕ)} {G : List (List (ℕ × ℕ))} (hG : Grouping tol dets G)
    {g h : List (ℕ × ℕ)} (hg : g ∈ G) (hh : h ∈ G) {a b : ℕ × ℕ} (ha : a ∈ g) (hb : b ∈ h)
    (h1 : a.1 ≤ b.1 + tol) (h2 : b.1 ≤ a.1 + tol) : g = h := by
  obtain ⟨i, hi, rfl⟩ := List.getElem_of_mem hg
  obtain ⟨j, hj, rfl⟩ := List.getElem_of_mem hh
  have hp := List.pairwise_iff_getElem.1 hG.apart
  rcases Nat.lt_trichotomy i j with hij | rfl | hij
  · have := hp i j hi hj hij a ha b hb; omega
  · rfl
  · have := hp j i hj hi hij b hb a ha; omega

theorem Grouping.find {tol : ℕ} {dets : List (ℕ × ℕ)} {G : List (List (ℕ × ℕ))} (hG : Grouping tol dets G)
    {a : ℕ × ℕ} (ha : a ∈ dets) : ∃ g ∈ G, a ∈ g := by
  simpa using hG.partition.mem_iff.2 ha

theorem Grouping.det {tol : ℕ} {dets : List (ℕ × ℕ)} {G : List (List (ℕ × ℕ))} (hG : Grouping tol dets G)
    {g : List (ℕ × ℕ)} {a : ℕ × ℕ} (hg : g ∈ G) (ha : a ∈ g) : a ∈ dets :=
  hG.partition.mem_iff.1 (List.mem_flatten.2 ⟨g, hg, ha⟩)

/-- Every group of the narrow tolerance lies inside one of the wide tolerance. -/
theorem Grouping.absorb {tol tol' : ℕ} {dets : List (ℕ × ℕ)} {G G' : List (List (ℕ × ℕ))} (hG : Grouping tol dets G)
    (hG' : Grouping tol' dets G') (ht : tol ≤ tol') {g : List (ℕ × ℕ)} (hg : g ∈ G) : ∃ h ∈ G', ∀ a ∈ g, a ∈ h := by
  have hd : ∀ a ∈ g, a ∈ dets := fun a ha => hG.det hg ha
  have hc := hG.linked g hg
  have h0 := hG.nonempty g hg
  clear hg
  induction g with
  | nil => exact absurd rfl h0
  | cons a l ih =>
    rcases l with _ | ⟨b, l⟩
    · obtain ⟨h, hh, ha⟩ := hG'.find (hd a (by simp))
      exact ⟨h, hh, by simpa using ha⟩
    · rw [List.isChain_cons_cons] at hc
      obtain ⟨h, hh, hall⟩ := ih (fun x hx => hd x (List.mem_cons_of_mem _ hx)) hc.2 (by simp)
      obtain ⟨h2, hh2, ha⟩ := hG'.find (hd a (by simp))
      obtain rfl := hG'.same hh2 hh ha (hall b (by simp)) (by omega) (by omega)
      refine ⟨h2, hh2, fun x hx => ?_⟩
      rcases List.mem_cons.1 hx with rfl | hx
      · exact ha
      · exact hall x hx

/-- Fewer groups with the wide tolerance. -/
theorem Grouping.fewer {tol tol' : ℕ} {dets : List (ℕ × ℕ)} {G G' : List (List (ℕ × ℕ))} (hG : Grouping tol dets G)
    (hG' : Grouping tol' dets G') (ht : tol ≤ tol') : G'.length ≤ G.length := by
  classical
  have hnd : G'.Nodup := by
    have := hG'.apart
    rw [List.Nodup, List.pairwise_iff_getElem] at *
    intro i j hi hj hij he
    obtain ⟨a, ha⟩ := List.exists_mem_of_ne_nil _ (hG'.nonempty _ (List.getElem_mem hi))
    have := this i j hi hj hij a ha a (he ▸ ha)
    omega
  have hφ : ∀ h ∈ G', ∃ g ∈ G, ∃ a ∈ g, a ∈ h := by
    intro h hh
    obtain ⟨a, ha⟩ := List.exists_mem_of_ne_nil _ (hG'.nonempty h hh)
    obtain ⟨g, hg, hag⟩ := hG.find (hG'.det hh ha)
    exact ⟨g, hg, a, hag, ha⟩
  choose! φ hφ1 hφ2 using hφ
  have hinj : ∀ h1 ∈ G', ∀ h2 ∈ G', φ h1 = φ h2 → h1 = h2 := by
    intro h1 hh1 h2 hh2 he
    obtain ⟨k, hk, hall⟩ := hG.absorb hG' ht (hφ1 h1 hh1)
    obtain ⟨a, ha, ha1⟩ := hφ2 h1 hh1
    obtain ⟨b, hb, hb2⟩ := hφ2 h2 hh2
    rw [hG'.same hh1 hk ha1 (hall a ha) (by omega) (by omega),
      hG'.same hh2 hk hb2 (hall b (he ▸ hb)) (by omega) (by omega)]
  have hn : (G'.map φ).Nodup := (List.nodup_map_iff_inj_on hnd).2 hinj
  have := (List.subperm_of_subset hn (fun g hg => by
    obtain ⟨h, hh, rfl⟩ := List.mem_map.1 hg
    exact hφ1 h hh)).length_le
  simpa using this

/-- The order of the detections does not depend on the tolerance. -/
theorem Grouping.flatten_eq {tol tol' : ℕ} {dets : List (ℕ × ℕ)} {G G' : List (List (ℕ × ℕ))} (hG : Grouping tol dets G)
    (hG' : Grouping tol' dets G') : G.flatten = G'.flatten := by
  refine (hG.partition.trans hG'.partition.symm).eq_of_pairwise ?_ hG.order hG'.order
  rintro ⟨a, b⟩ ⟨c, d⟩ _ _ h1 h2
  simp only [Prod.mk.injEq] at *
  omega

/-- A group is the part of all detections that belongs to it. -/
theorem Grouping.filter_eq {tol : ℕ} {dets : List (ℕ × ℕ)} {G : List (List (ℕ × ℕ))} (hG : Grouping tol dets G)
    {g : List (ℕ × ℕ)} (hg : g ∈ G) : G.flatten.filter (fun a => decide (a ∈ g)) = g := by
  obtain ⟨s, t, rfl⟩ := List.append_of_mem hg
  have hp := hG.apart
  rw [List.pairwise_append, List.pairwise_cons] at hp
  rw [List.flatten_append, List.flatten_cons, List.filter_append, List.filter_append]
  have h1 : s.flatten.filter (fun a => decide (a ∈ g)) = [] := by
    rw [List.filter_eq_nil_iff]
    intro a ha
    obtain ⟨h, hh, ha⟩ := List.mem_flatten.1 ha
    simp only [decide_eq_true_eq]
    intro hag
    have := hp.2.2 h hh g (by simp) a ha a hag
    omega
  have h2 : t.flatten.filter (fun a => decide (a ∈ g)) = [] := by
    rw [List.filter_eq_nil_iff]
    intro a ha
    obtain ⟨h, hh, ha⟩ := List.mem_flatten.1 ha
    simp only [decide_eq_true_eq]
    intro hag
    have := hp.2.1.1 h hh a hag a ha
    omega
  have h3 : g.filter (fun a => decide (a ∈ g)) = g := by
    rw [List.filter_eq_self]; simp
  rw [h1, h2, h3, List.nil_append, List.append_nil]

theorem Grouping.sublist {tol tol' : ℕ} {dets : List (ℕ × ℕ)} {G G' : List (List (ℕ × ℕ))} (hG : Grouping tol dets G)
    (hG' : Grouping tol' dets G') {g h : List (ℕ × ℕ)} (hg : g ∈ G) (hh : h ∈ G') (hall : ∀ a ∈ g, a ∈ h) : g.Sublist h := by
  rw [← hG.filter_eq hg, ← hG'.filter_eq hh, hG.flatten_eq hG']
  apply List.monotone_filter_right
  intro a ha
  simp only [decide_eq_true_eq] at *
  exact hall a ha

/-- Summing fewer non-negative weights in the same order gives no more. -/
theorem sum_sublist {l l' : List F32} (h : l.Sublist l') (h0 : ∀ x ∈ l', 0 ≤ x) : F32.sum l ≤ F32.sum l' := by
  have key : ∀ {l l' : List F32}, l.Sublist l' → (∀ x ∈ l', 0 ≤ x) → ∀ a b : F32, 0 ≤ a → a ≤ b →
      l.foldl (· + ·) a ≤ l'.foldl (· + ·) b := by
    intro l l' h
    induction h with
    | slnil => intro _ a b _ h; exact h
    | @cons l l' x _ ih =>
      intro h0 a b ha hab
      rw [List.foldl_cons]
      exact ih (fun y hy => h0 y (List.mem_cons_of_mem _ hy)) a _ ha
        (F32.le_trans hab (F32.le_add_right (F32.le_trans ha hab) (h0 x (by simp))))
    | @cons_cons l l' x _ ih =>
      intro h0 a b ha hab
      rw [List.foldl_cons, List.foldl_cons]
      have hx := h0 x (by simp)
      refine ih (fun y hy => h0 y (List.mem_cons_of_mem _ hy)) _ _ (F32.add_nonneg ha hx) ?_
      exact F32.add_le_add hab (F32.le_refl (ne_nan_right hx)) (ne_nan_right (F32.add_nonneg ha hx))
        (ne_nan_right (F32.add_nonneg (F32.le_trans ha hab) hx))
  exact key h h0 0 0 (F32.le_refl zero_ne_nan) (F32.le_refl zero_ne_nan)

theorem dedup_length_mono {l l' : List ℕ} (h : ∀ x ∈ l, x ∈ l') : l.dedup.length ≤ l'.dedup.length :=
  (List.subperm_of_subset (List.nodup_dedup l) (fun x hx => List.mem_dedup.2 (h x (List.mem_dedup.1 hx)))).length_le

/-- **C123.** With a wider tolerance there are never more candidates, and every group of detections is absorbed by one that is
at least as widely supported and whose confidence is at least as high. -/
theorem C123_wider (inp : Input) (w : ℕ → F32) (ms ms' sr : ℕ) (hms : ms ≤ ms')
    (hpos : ∀ d ∈ Detections inp, d.1 < 2 ^ 31) (hw : ∀ m, m < 4 → w m ≠ nan)
    (hsum : (F32.sum [w 0, w 1, w 2, w 3]).isFinite = true) {cands cands' : List Candidate}
    (h : voteOnsets inp w ms sr = .ok cands) (h' : voteOnsets inp w ms' sr = .ok cands') :
    cands'.length ≤ cands.length ∧ ∀ c ∈ cands, ∃ c' ∈ cands', c.votedBy ≤ c'.votedBy ∧ c.confidence ≤ c'.confidence := by
  have hok : ∀ {m c}, voteOnsets inp w m sr = .ok c → ¬ (sr = 0 ∨ m = 0 ∨ (∃ m, m < 4 ∧ w m < 0)) := by
    intro m c he hb
    rw [(C11_partition inp w m sr hpos).1 hb] at he; cases he
  have hs : sr ≠ 0 := fun hc => hok h (.inl hc)
  obtain ⟨c1, G, o, e, hG, hf, hp⟩ := (C11_partition inp w ms sr hpos).2 (hok h)
  obtain ⟨c2, G', o', e', hG', hf', hp'⟩ := (C11_partition inp w ms' sr hpos).2 (hok h')
  rw [h] at e
  rw [h'] at e'
  obtain rfl := Except.ok.inj e
  obtain rfl := Except.ok.inj e'
  have ht : TolSamples ms sr ≤ TolSamples ms' sr := min_samples_mono hms hs
  refine ⟨?_, fun c hc => ?_⟩
  · rw [← hp.length_eq, ← hp'.length_eq, ← hf.length_eq, ← hf'.length_eq]
    exact hG.fewer hG' ht
  · obtain ⟨i, hi, rfl⟩ := List.getElem_of_mem (hp.mem_iff.2 hc)
    have hi' : i < G.length := by rw [hf.length_eq]; exact hi
    have hsm := List.Forall₂.get hf hi' hi
    obtain ⟨g', hg', hall⟩ := hG.absorb hG' ht (List.getElem_mem hi')
    obtain ⟨j, hj, rfl⟩ := List.getElem_of_mem hg'
    have hj' : j < o'.length := by rw [← hf'.length_eq]; exact hj
    have hsm' := List.Forall₂.get hf' hj hj'
    refine ⟨o'[j], hp'.mem_iff.1 (List.getElem_mem hj'), ?_⟩
    simp only [List.get_eq_getElem] at hsm hsm'
    refine ⟨?_, ?_⟩
    · rw [hsm.votes, hsm'.votes]
      apply dedup_length_mono
      intro x hx
      obtain ⟨d, hd, rfl⟩ := List.mem_map.1 hx
      exact List.mem_map.2 ⟨d, hall d hd, rfl⟩
    · by_cases hS : 0 < F32.sum [w 0, w 1, w 2, w 3]
      · rw [hsm.conf.1 hS, hsm'.conf.1 hS]
        have hnn : ∀ x ∈ (G'[j].map (fun d => w d.2)), 0 ≤ x := by
          intro x hx
          obtain ⟨d, hd, rfl⟩ := List.mem_map.1 hx
          have hd4 : d.2 < 4 := by
            have := hG'.det hg' hd
            simp only [Detections, List.mem_append, List.mem_map] at this
            rcases this with ((⟨s, _, rfl⟩ | ⟨s, _, rfl⟩) | ⟨s, _, rfl⟩) | ⟨s, _, rfl⟩ <;> simp
          exact le_of_not_lt zero_ne_nan (hw _ hd4) (fun hlt => hok h (.inr (.inr ⟨_, hd4, hlt⟩)))
        have hle := sum_sublist ((hG.sublist hG' (List.getElem_mem hi') hg' hall).map (fun d => w d.2)) hnn
        have h0 : 0 ≤ F32.sum (G[i].map (fun d => w d.2)) := sum_nonneg (fun x hx =>
          hnn x (((hG.sublist hG' (List.getElem_mem hi') hg' hall).map (fun d => w d.2)).mem hx))
        obtain ⟨S, hS', e⟩ := isFinite_iff.1 hsum
        rw [e] at hS ⊢
        rw [zero_def, fin_lt_fin] at hS
        have hnn' : ∀ {a : F32}, 0 ≤ a → a / fin S hS' ≠ nan := by
          intro a ha
          rcases nonneg_cases ha with rfl | ⟨v, hv, rfl, _⟩
          · rw [inf_div_fin]; simp
          · rw [div_fin hS.ne']; exact rnd_ne_nan _
        exact clamp01_mono (F32.div_le_div_right hle (by rw [zero_def, fin_lt_fin]; exact hS) (hnn' h0)
          (hnn' (F32.le_trans h0 hle)))
      · rw [hsm.conf.2 hS, hsm'.conf.2 hS]; exact F32.le_refl zero_ne_nan

/-- Non-vacuity: at 1 ms (one sample at 1 kHz) three candidates, at 10 ms one, supported by both methods. -/
example : (voteOnsets ⟨[100, 105], [109], [], []⟩ (fun _ => 0.25) 1 1000).toOption.map (List.map Candidate.votedBy) =
      some [1, 1, 1] ∧
    (voteOnsets ⟨[100, 105], [109], [], []⟩ (fun _ => 0.25) 10 1000).toOption.map (List.map Candidate.votedBy) =
      some [2] ∧ ∀ d ∈ Detections ⟨[100, 105], [109], [], []⟩, d.1 < 2 ^ 31 :=
  ⟨by decide +kernel, by decide +kernel, by decide⟩

example : (F32.sum [0.25, 0.25, 0.25, 0.25]).isFinite = true ∧ (0.25 : F32) ≠ nan := by decide +kernel

end Verif.Props
